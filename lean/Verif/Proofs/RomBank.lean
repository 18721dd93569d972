import Verif.Proofs.RomWrites
import Verif.Props.Rom
import Verif.Props.Encoding
/-
From a successful build of a bank to its layout.
-/
namespace M2S
open RomSpec

theorem bankIn_found {b : Bank} {rom : Rom} {base : Nat} (hb : base + 8 < 2 ^ 24) (h : b.In (ofRom rom) base) :
    ∃ w, findChunks rom base = .ok w ∧ w.baseAddr = b.songs.data ∧ w.baseLen = b.songs.len ∧ w.overflowAddr = b.over.data ∧
      w.overflowLen = b.over.len ∧ w.overflowAram = b.over.aram := by
  have hne : b.chunks ≠ [] := by simp [Bank.chunks]
  have hcat : b.chunks.dropLast ++ [b.chunks.getLast hne] = b.chunks := List.dropLast_append_getLast hne
  have hlast : ∃ x ∈ b.over :: b.post, b.chunks.getLast hne = x := by
    refine ⟨(b.over :: b.post).getLast (by simp), List.getLast_mem _, ?_⟩
    have : b.chunks = (b.pre ++ [b.songs]) ++ (b.over :: b.post) := by simp [Bank.chunks]
    simp only [this]
    rw [List.getLast_append_of_ne_nil]
  obtain ⟨x, hx, hxl⟩ := hlast
  have hC := C38_last_base rom base hb b.start b.chunks.dropLast (b.chunks.getLast hne) h.pointer
    ⟨by rw [hcat]; exact h.chunks, h.inner, h.last _ (by rw [List.getLast?_eq_some_getLast hne]; rfl)⟩ (by rw [hxl]; exact h.later x hx)
  exact hC.1 b.pre b.songs b.over b.post (by rw [hcat]; rfl) h.songs h.later

theorem chunks_append {m : Mem} : ∀ {l : List ChunkInfo} {p : Nat} {r : List ChunkInfo}, Chunks m p (l ++ r) → ∃ q, Chunks m q r := by
  intro l
  induction l with
  | nil => intro p r h; exact ⟨p, h⟩
  | cons c l ih => intro p r h; exact ih (chunks_tail h).2

/-- Chunks lie one behind the other. -/
theorem chunks_ordered {m : Mem} : ∀ {l : List ChunkInfo} {p : Nat}, Chunks m p l →
    (∀ c ∈ l, p ≤ c.pos) ∧ l.Pairwise fun c d => c.next ≤ d.pos := by
  intro l
  induction l with
  | nil => intro p _; exact ⟨by simp, .nil⟩
  | cons c l ih =>
    intro p h
    obtain ⟨h1, h2⟩ := chunks_tail h
    obtain ⟨h3, h4⟩ := ih h2
    have hp := header_pos h1
    refine ⟨?_, List.pairwise_cons.mpr ⟨h3, h4⟩⟩
    intro d hd
    rcases List.mem_cons.mp hd with rfl | hd
    · omega
    · have := h3 d hd
      unfold ChunkInfo.next at this
      omega

theorem bankIn_over_pos {b : Bank} {m : Mem} {base : Nat} (h : b.In m base) : b.over.pos = b.songs.next := by
  have := h.chunks
  unfold Bank.chunks at this
  obtain ⟨q, h3⟩ := chunks_append this
  obtain ⟨h4, h5⟩ := chunks_tail h3
  exact header_pos (chunks_tail h5).1

/-! The encoded songs are those of the placement. -/

def PlacedSong.enc (s : PlacedSong) : Encoded := ⟨s.loops, s.part, s.tracks.map (·.out)⟩

theorem forall₂_det {α β : Type} {R : α → β → Prop} (hR : ∀ a b c, R a b → R a c → b = c) : ∀ {l : List α} {x y : List β},
    List.Forall₂ R l x → List.Forall₂ R l y → x = y := by
  intro l
  induction l with
  | nil => intro x y hx hy; cases hx; cases hy; rfl
  | cons a l ih =>
    intro x y hx hy
    cases hx with
    | cons h1 t1 =>
      cases hy with
      | cons h2 t2 => rw [hR a _ _ h1 h2, ih t1 t2]

theorem EncodedOf.det {Path : Type} {conv : Converter Path} (d : SongDef Path) (a b : Encoded) (ha : EncodedOf conv d a) (hb : EncodedOf conv d b) :
    a = b := by
  obtain ⟨s1, h1, h2, h3, h4⟩ := ha
  obtain ⟨s2, k1, k2, k3, k4⟩ := hb
  rw [h1] at k1
  cases k1
  rw [h3] at k3
  have e3 : a.part = b.part := Except.ok.inj k3
  have e4 := forall₂_det (fun i x y (hx : s1.writeTrack i = .ok x) (hy : s1.writeTrack i = .ok y) => by rw [hx] at hy; cases hy; rfl) h4 k4
  have e2 := h2.trans k2.symm
  cases a; cases b
  simp only at e2 e3 e4
  rw [e2, e3, e4]

theorem placeBank_enc {Path : Type} {conv : Converter Path} {w : Walk} {v : Bool} : ∀ (ds : List (SongDef Path)) {c c' : Cur} {t : Nat}
    {ps : List PlacedSong}, placeBank conv w v ds c t = .ok (ps, c') → List.Forall₂ (EncodedOf conv) ds (ps.map PlacedSong.enc) := by
  intro ds
  induction ds with
  | nil => intro c c' t ps h; cases h; exact .nil
  | cons d ds ih =>
    intro c c' t ps h
    rw [placeBank, res_bind] at h
    obtain ⟨song, hsong, h⟩ := h
    rw [res_bind] at h
    obtain ⟨⟨s, c1⟩, hs, h⟩ := h
    rw [res_bind] at h
    obtain ⟨⟨ps, c2⟩, hps, heq⟩ := h
    rw [res_pure] at heq
    cases heq
    obtain ⟨-, hf⟩ := placeSong_run hs
    refine .cons ⟨song, hsong, hf.hloops, hf.hpart, ?_⟩ (ih hps)
    exact List.forall₂_map_right_iff.mpr hf.houts

theorem items_blk (s : PlacedSong) : s.items.map Item.blk = songBlocks s.enc.loops s.enc.tracks := by
  rw [PlacedSong.items_eq]
  simp only [songBlocks, PlacedSong.headItem, PlacedSong.enc, songHeaderSize, Placed.item, Function.comp_def, List.map_cons, List.map_map]
  rfl

theorem items_blocks (ps : List PlacedSong) : (ps.flatMap PlacedSong.items).map Item.blk = blocks (ps.map PlacedSong.enc) := by
  unfold blocks
  induction ps with
  | nil => rfl
  | cons s ps ih => simp [ih, items_blk]

theorem writeTrack_refs {s : Song} {i : Nat} {o : Out} (h : s.writeTrack i = .ok o) : ∀ r ∈ o.refs, r.refPos + 1 < o.bytes.length := by
  intro r hr
  cases ht : s.tracks[i]? with
  | none => unfold Song.writeTrack at h; rw [ht] at h; cases h
  | some track =>
    by_cases hne : track = []
    · unfold Song.writeTrack at h
      rw [ht, hne] at h
      simp at h
      rw [← h] at hr
      cases hr
    · have := ((C05_call_refs s i track ht hne o h).2.1 r hr).2.2.2
      exact (List.getElem?_eq_some_iff.mp this).1

/-- The layout of a bank whose songs fit. -/
structure Laid (b : Bank) (B : PlacedBank) (first fs : Nat) (es : List Encoded) : Prop where
  good : B.Good
  enc : B.songs.map PlacedSong.enc = es
  first : B.first = first
  table : B.table = b.songs.data + 2 * fs
  base : B.chunks.baseAddr = b.songs.data
  items : ∀ i ∈ B.songs.flatMap PlacedSong.items, i.cur.off + i.blk.size ≤ i.cur.len ∧
    ((i.cur.romAddr = b.songs.data ∧ i.cur.len = b.songs.len ∧ i.cur.aram = 0xd000) ∨
     (i.cur.romAddr = b.over.data ∧ i.cur.len = b.over.len ∧ i.cur.aram = b.over.aram))

theorem laid_of_placed {Path : Type} {conv : Converter Path} {v : Bool} {songs : List (SongDef Path)} {rom : Rom} {base first fs : Nat}
    {b : Bank} {es : List Encoded} {w : Walk} {ps : List PlacedSong} {c : Cur} (hb : base + 8 < 2 ^ 24) (hin : b.In (ofRom rom) base)
    (hes : List.Forall₂ (EncodedOf conv) songs es) (hfit : Fits b.songs.len b.over.len (first - 0xd000) fs es) (hw : findChunks rom base = .ok w)
    (hfirst : aramBase ≤ first) (hpl : placeBank conv w v songs (startCur w first) (w.baseAddr + 2 * fs) = .ok (ps, c)) :
    Laid b ⟨w, first, w.baseAddr + 2 * fs, ps⟩ first fs es := by
  obtain ⟨w', hw', e1, e2, e3, e4, e5⟩ := bankIn_found hb hin
  rw [hw] at hw'
  cases hw'
  obtain ⟨hrun, hfacts⟩ := placeBank_run _ hpl
  have hl := placeBank_length _ hpl
  have henc : ps.map PlacedSong.enc = es := forall₂_det EncodedOf.det (placeBank_enc _ hpl) hes
  have hbl := items_blocks ps
  rw [henc] at hbl
  have hbase : (startCur w first).InBase w := ⟨rfl, rfl, rfl⟩
  have hstart : (startCur w first).off ≤ (startCur w first).len := by
    simp only [startCur]; rw [e2]; exact hfit.start
  obtain ⟨x, y, hxy, htake, hx, hy, hysw, hyfit⟩ := hrun.split hbase hstart
  have hov : w.Ordered := by
    unfold Walk.Ordered
    rw [e1, e2, e3]
    have := bankIn_over_pos hin
    simp only [ChunkInfo.data, ChunkInfo.next] at *
    omega
  obtain ⟨-, -, hpos, hpair⟩ := hrun.mono hov (.inl ⟨hbase, hstart⟩)
  have hlen : (startCur w first).len - (startCur w first).off = b.songs.len - (first - 0xd000) := by
    simp only [startCur]; rw [e2]; rfl
  rw [hbl, hlen] at htake
  have hin_all : ∀ i ∈ ps.flatMap PlacedSong.items, i.Inside := by
    intro i hi
    by_cases hsw : i.sw = false
    · exact hrun.inside i hi hsw
    · rw [hxy] at hi
      rcases List.mem_append.mp hi with hi | hi
      · exact absurd (hx i hi).1 hsw
      · cases y with
        | nil => cases hi
        | cons y0 ys =>
          rcases List.mem_cons.mp hi with rfl | hi
          · have htot := hfit.rest
            rw [htake] at htot
            simp only [List.map_cons, total, List.sum_cons] at htot
            have hc := hy i (List.mem_cons_self ..)
            have hoff : i.cur.off = 0 := by
              have : ∀ {c c' : Cur} {its : List Item}, Run w c its c' → ∀ i ∈ its, i.sw = true → i.cur.off = 0 := by
                intro c c' its hr
                induction hr with
                | nil c => simp
                | stay hfit t ih =>
                  intro i hi hsw
                  rcases List.mem_cons.mp hi with rfl | hi
                  · cases hsw
                  · exact ih i hi hsw
                | switch hno ha t ih =>
                  intro i hi hsw
                  rcases List.mem_cons.mp hi with rfl | hi
                  · rfl
                  · exact ih i hi hsw
              exact this hrun i (by rw [hxy]; simp) (by simpa using hsw)
            unfold Item.Inside
            rw [hoff, hc.2.1, e4]
            omega
          · exact absurd (hysw i hi) hsw
  have hfact : ∀ s ∈ ps, ∃ song t loops, s.Facts t song loops := by
    intro s hs
    obtain ⟨k, hk, hks⟩ := List.getElem_of_mem hs
    have hk' : k < songs.length := by rw [← hl]; exact hk
    obtain ⟨song, -, hf⟩ := hfacts k (songs[k]'hk') s (List.getElem?_eq_getElem hk') (by rw [List.getElem?_eq_getElem hk, hks])
    exact ⟨song, _, _, hf⟩
  refine ⟨⟨?_, hpair, ?_, ?_, ?_⟩, henc, rfl, by simp only [e1], e1, ?_⟩
  · intro s hs
    obtain ⟨song, t, loops, hf⟩ := hfact s hs
    refine ⟨?_, ?_, ?_⟩
    · exact hfit.parts s.enc (by rw [← henc]; exact List.mem_map.mpr ⟨s, hs, rfl⟩)
    · intro p hp hrefs
      by_cases hsw : p.switched = false
      · exact hf.hrefs p hp hsw
      · exfalso
        have hmem : p.item ∈ ps.flatMap PlacedSong.items := List.mem_flatMap.mpr ⟨s, hs, by
          rw [PlacedSong.items_eq]; exact List.mem_cons_of_mem _ (List.mem_map.mpr ⟨p, hp, rfl⟩)⟩
        rw [hxy] at hmem
        rcases List.mem_append.mp hmem with hi | hi
        · exact hsw (hx _ hi).1
        · cases y with
          | nil => cases hi
          | cons y0 ys =>
            rcases List.mem_cons.mp hi with hi | hi
            · have := hfit.calls p.item.blk (by rw [htake, ← hi]; rfl)
              simp only [Placed.item, Bool.not_eq_false', List.isEmpty_iff] at this
              exact hrefs this
            · exact hsw (hysw _ hi)
    · intro p hp r hr
      obtain ⟨i, -, hi⟩ : ∃ i, i ∈ List.range song.tracks.length ∧ song.writeTrack i = .ok p.out := by
        have := hf.houts
        clear hf
        generalize List.range song.tracks.length = is at this
        generalize s.tracks = tr at this hp
        induction this with
        | nil => cases hp
        | @cons a b is' tr' h1 t ih =>
          rcases List.mem_cons.mp hp with rfl | hp
          · exact ⟨a, by simp, h1⟩
          · obtain ⟨i, hi, h⟩ := ih hp
            exact ⟨i, by simp [hi], h⟩
      exact writeTrack_refs hi r hr
  · intro k s hk
    have hk' : k < songs.length := by rw [← hl]; exact (List.getElem?_eq_some_iff.mp hk).1
    obtain ⟨song, -, hf⟩ := hfacts k (songs[k]'hk') s (List.getElem?_eq_getElem hk') hk
    exact hf.htable
  · simp only
    have h1 := hfit.table
    have h2 : es.length = ps.length := by rw [← henc]; simp
    have h3 : aramBase = 0xd000 := rfl
    omega
  · intro i hi
    have := (hpos i hi).2.1
    simp only [startCur, Cur.pos] at this
    simp only
    omega
  · intro i hi
    refine ⟨hin_all i hi, ?_⟩
    rcases (hpos i hi).1 with ⟨⟨h1, h2, h3⟩, -⟩ | ⟨h1, h2, h3⟩
    · left; exact ⟨h1.trans e1, h2.trans e2, h3⟩
    · right; exact ⟨h1.trans e3, h2.trans e4, h3.trans e5⟩

/-- A bank that has been built. -/
structure Built (b : Bank) (B : PlacedBank) (first fs : Nat) (es : List Encoded) (rom r : Rom) : Prop extends Laid b B first fs es where
  result : r = applyW rom B.writes
  inside : ∀ x ∈ B.writes, x.1 < rom.length

theorem built_of_ok {Path : Type} {conv : Converter Path} {v : Bool} {songs : List (SongDef Path)} {rom r : Rom} {base first fs : Nat}
    {b : Bank} {es : List Encoded} (hb : base + 8 < 2 ^ 24) (hin : b.In (ofRom rom) base) (hes : List.Forall₂ (EncodedOf conv) songs es)
    (hfit : Fits b.songs.len b.over.len (first - 0xd000) fs es) (h : writeBank conv v songs rom base first fs = .ok r) :
    ∃ B, Built b B first fs es rom r := by
  obtain ⟨w, ps, c, hw, hfirst, hpl, -, hrange, hr⟩ := writeBank_ok.mp h
  exact ⟨_, laid_of_placed hb hin hes hfit hw hfirst hpl, hr, hrange⟩

end M2S
