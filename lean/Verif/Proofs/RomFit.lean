import Verif.Proofs.RomBank
/-
When the placement of a bank's blocks fails, and that it succeeds otherwise.
-/
namespace M2S
open RomSpec

/-- The placement gets stuck at a block in the overflow chunk. -/
def Stuck (w : Walk) (c : Cur) (bs : List Block) : Prop :=
  ∃ its b rest c1, bs = its.map Item.blk ++ b :: rest ∧ Run w c its c1 ∧ c1.aram = w.overflowAram ∧ c1.len < c1.off + b.size

theorem Stuck.append {w : Walk} {c : Cur} {a : List Block} (b : List Block) (h : Stuck w c a) : Stuck w c (a ++ b) := by
  obtain ⟨its, x, rest, c1, h1, h2, h3, h4⟩ := h
  exact ⟨its, x, rest ++ b, c1, by rw [h1]; simp, h2, h3, h4⟩

theorem Stuck.after {w : Walk} {c c1 : Cur} {its : List Item} {b : List Block} (hr : Run w c its c1) (h : Stuck w c1 b) :
    Stuck w c (its.map Item.blk ++ b) := by
  obtain ⟨its', x, rest, c2, h1, h2, h3, h4⟩ := h
  exact ⟨its ++ its', x, rest, c2, by rw [h1]; simp, hr.append h2, h3, h4⟩

/-- No further song offset than the cursor, as long as the base chunk is used. -/
def SongBefore (w : Walk) (so : Nat) (c : Cur) : Prop := c.Ok w ∧ (c.aram ≠ w.overflowAram → so ≤ c.len)

theorem switchChunk_cases {w : Walk} {v : Bool} {so : Nat} {need : Nat} {c : Cur} (h : SongBefore w so c) :
    (∃ s, switchChunk w v so c.off need c.romAddr c.len c.aram = .ok s) ∨
    (switchChunk w v so c.off need c.romAddr c.len c.aram = .error (.err .doesNotFit) ∧ c.len < c.off + need ∧ c.aram = w.overflowAram) := by
  unfold switchChunk
  split_ifs with h1 h2 h3
  · right; exact ⟨rfl, h1, h2⟩
  · exact absurd (h.2 h2) (by omega)
  · left; exact ⟨_, rfl⟩
  · left; exact ⟨_, rfl⟩

theorem switchChunk_before {w : Walk} {v : Bool} {so : Nat} {need : Nat} {c : Cur} {s : Bool × Nat × Nat × Nat × Nat} (h : SongBefore w so c)
    (hs : switchChunk w v so c.off need c.romAddr c.len c.aram = .ok s) :
    SongBefore w so ⟨s.2.2.1, s.2.2.2.1, s.2.2.2.2, s.2.1 + need⟩ := by
  rcases switchChunk_ok.mp hs with ⟨hfit, rfl⟩ | ⟨hno, har, -, rfl⟩
  · refine ⟨?_, h.2⟩
    rcases h.1 with ⟨h1, h2⟩ | h1
    · left; exact ⟨h1, hfit⟩
    · right; exact h1
  · exact ⟨.inr ⟨rfl, rfl, rfl⟩, fun h => absurd rfl h⟩

theorem placeTracks_cases {w : Walk} {v : Bool} {so : Nat} {song : Song} : ∀ {is : List Nat} {outs : List Out} {c : Cur},
    List.Forall₂ (fun i o => song.writeTrack i = .ok o) is outs → SongBefore w so c →
    (∃ ps c', placeTracks w v so song is c = .ok (ps, c') ∧ SongBefore w so c') ∨
    (placeTracks w v so song is c = .error (.err .doesNotFit) ∧ Stuck w c (outs.map fun o => ⟨o.bytes.length, !o.refs.isEmpty⟩)) := by
  intro is outs c h
  induction h generalizing c with
  | nil => intro hc; left; exact ⟨[], c, rfl, hc⟩
  | @cons i o is outs ho hall ih =>
    intro hc
    rw [placeTracks, ho]
    simp only [bind, Except.bind]
    rcases switchChunk_cases (v := v) (need := o.bytes.length) hc with ⟨s, hs⟩ | ⟨hs, hno, har⟩
    · rw [hs]
      simp only
      have hb := switchChunk_before hc hs
      rcases ih hb with ⟨ps, c', hps, hc'⟩ | ⟨hps, hst⟩
      · left; rw [hps]; exact ⟨_, c', rfl, hc'⟩
      · right
        rw [hps]
        refine ⟨rfl, ?_⟩
        rcases switchChunk_ok.mp hs with ⟨hfit, rfl⟩ | ⟨hno, har, -, rfl⟩
        · have hr : Run w c [⟨⟨o.bytes.length, !o.refs.isEmpty⟩, c, false⟩] { c with off := c.off + o.bytes.length } := .stay hfit (.nil _)
          exact Stuck.after hr hst
        · have hr : Run w c [⟨⟨o.bytes.length, !o.refs.isEmpty⟩, ⟨w.overflowAddr, w.overflowLen, w.overflowAram, 0⟩, true⟩]
              ⟨w.overflowAddr, w.overflowLen, w.overflowAram, o.bytes.length⟩ := .switch hno har (.nil _)
          refine Stuck.after hr ?_
          simpa using hst
    · right
      rw [hs]
      exact ⟨rfl, [], _, _, c, rfl, .nil c, har, hno⟩

theorem placeSong_cases {w : Walk} {v : Bool} {song : Song} {loops : Bool} {part : List Nat} {outs : List Out} {c : Cur} {t : Nat} (hc : c.Ok w)
    (hpart : song.partTracks 0 = .ok part)
    (houts : List.Forall₂ (fun i o => song.writeTrack i = .ok o) (List.range song.tracks.length) outs) :
    (∃ s c', placeSong w v c t song loops = .ok (s, c') ∧ c'.Ok w) ∨
    (placeSong w v c t song loops = .error (.err .doesNotFit) ∧ Stuck w c (songBlocks loops outs)) := by
  have hsz : songHeaderSize loops + 16 = (if loops then 8 else 4) + 16 := rfl
  have hb : SongBefore w c.off c := ⟨hc, by
    rintro ha
    rcases hc with ⟨h1, h2⟩ | ⟨-, -, h⟩
    · exact h2
    · exact absurd h ha⟩
  unfold placeSong
  simp only [bind, Except.bind]
  rcases switchChunk_cases (v := v) (need := songHeaderSize loops + 16) hb with ⟨s, hs⟩ | ⟨hs, hno, har⟩
  · rw [hs]
    simp only
    have hb' := switchChunk_before hb hs
    have hb2 : SongBefore w s.2.1 ⟨s.2.2.1, s.2.2.2.1, s.2.2.2.2, s.2.1 + songHeaderSize loops + 16⟩ := by
      refine ⟨by rw [Nat.add_assoc]; exact hb'.1, ?_⟩
      intro ha
      rcases switchChunk_ok.mp hs with ⟨hfit, rfl⟩ | ⟨-, -, -, rfl⟩
      · simp only at ha ⊢; omega
      · exact absurd rfl ha
    rcases placeTracks_cases (v := v) houts hb2 with ⟨ps, c', hps, hc'⟩ | ⟨hps, hst⟩
    · left
      rw [hps, hpart]
      exact ⟨_, c', rfl, hc'.1⟩
    · right
      rw [hps]
      refine ⟨rfl, ?_⟩
      rcases switchChunk_ok.mp hs with ⟨hfit, rfl⟩ | ⟨hno, har, -, rfl⟩
      · have hr : Run w c [⟨⟨songHeaderSize loops + 16, false⟩, c, false⟩] { c with off := c.off + (songHeaderSize loops + 16) } := .stay hfit (.nil _)
        refine Stuck.after hr ?_
        simpa [Nat.add_assoc] using hst
      · have hr : Run w c [⟨⟨songHeaderSize loops + 16, false⟩, ⟨w.overflowAddr, w.overflowLen, w.overflowAram, 0⟩, true⟩]
            ⟨w.overflowAddr, w.overflowLen, w.overflowAram, songHeaderSize loops + 16⟩ := .switch hno har (.nil _)
        refine Stuck.after hr ?_
        simpa using hst
  · right
    rw [hs]
    exact ⟨rfl, [], _, _, c, rfl, .nil c, har, hno⟩

theorem placeBank_cases {Path : Type} {conv : Converter Path} {w : Walk} {v : Bool} : ∀ {ds : List (SongDef Path)} {es : List Encoded} {c : Cur} {t : Nat},
    List.Forall₂ (EncodedOf conv) ds es → c.Ok w →
    (∃ ps c', placeBank conv w v ds c t = .ok (ps, c')) ∨
    (placeBank conv w v ds c t = .error (.err .doesNotFit) ∧ Stuck w c (blocks es)) := by
  intro ds es c t h
  induction h generalizing c t with
  | nil => intro _; left; exact ⟨[], c, rfl⟩
  | @cons d e ds es he hall ih =>
    intro hc
    obtain ⟨song, hsong, hloops, hpart, houts⟩ := he
    rw [placeBank, hsong]
    simp only [bind, Except.bind]
    rcases placeSong_cases (v := v) (loops := d.loops) (t := t) hc hpart houts with ⟨s, c', hs, hc'⟩ | ⟨hs, hst⟩
    · rw [hs]
      simp only
      rcases ih (t := t + 2) hc' with ⟨ps, c2, hps⟩ | ⟨hps, hst⟩
      · left; rw [hps]; exact ⟨_, c2, rfl⟩
      · right
        rw [hps]
        refine ⟨rfl, ?_⟩
        obtain ⟨hrun, hf⟩ := placeSong_run hs
        have : blocks (e :: es) = s.items.map Item.blk ++ blocks es := by
          unfold blocks
          rw [List.flatMap_cons, items_blk]
          have h1 : s.enc.loops = e.loops := hf.hloops.trans hloops.symm
          have h2 : s.enc.tracks = e.tracks := by
            have h3 : List.Forall₂ (fun i o => song.writeTrack i = .ok o) (List.range song.tracks.length) s.enc.tracks :=
              List.forall₂_map_right_iff.mpr hf.houts
            exact forall₂_det (fun i x y (hx : song.writeTrack i = .ok x) (hy : song.writeTrack i = .ok y) => by rw [hx] at hy; cases hy; rfl) h3 houts
          rw [h1, h2]
        rw [this]
        exact Stuck.after hrun hst
    · right
      rw [hs]
      refine ⟨rfl, ?_⟩
      unfold blocks
      rw [List.flatMap_cons, hloops]
      exact Stuck.append _ hst

/-! The greedy split. -/

theorem takeFit_append : ∀ (a b : List Block) (n : Nat), (takeFit n a).2 ≠ [] → takeFit n (a ++ b) = ((takeFit n a).1, (takeFit n a).2 ++ b) := by
  intro a
  induction a with
  | nil => intro b n h; exact absurd rfl h
  | cons x a ih =>
    intro b n h
    rw [takeFit] at h
    rw [List.cons_append, takeFit, takeFit]
    split_ifs at h ⊢ with hx
    · rw [ih b _ h]
    · rfl

theorem stuck_takeFit {w : Walk} (hov : w.overflowAram ≠ aramBase) {c : Cur} {bs : List Block} (hc : c.InBase w) (hle : c.off ≤ c.len)
    (h : Stuck w c bs) : w.overflowLen < total (takeFit (c.len - c.off) bs).2 ∧ 2 ≤ (takeFit (c.len - c.off) bs).2.length := by
  obtain ⟨its, b, rest, c1, rfl, hrun, ha, hno⟩ := h
  obtain ⟨x, y, hxy, ht, hx, hy, -, -⟩ := hrun.split hc hle
  -- the stuck cursor is in the overflow chunk
  have hyne : y ≠ [] := by
    rintro rfl
    have : ∀ {c c' : Cur} {its : List Item}, Run w c its c' → c.InBase w → (∀ i ∈ its, i.sw = false) → c'.InBase w := by
      intro c c' its hr
      induction hr with
      | nil c => intro h _; exact h
      | stay hfit t ih => intro h hs; exact ih h fun i hi => hs i (List.mem_cons_of_mem _ hi)
      | switch hno ha t ih => intro _ hs; have := hs _ (List.mem_cons_self ..); cases this
    have hb := this hrun hc (by rw [hxy]; simpa using fun i hi => (hx i hi).1)
    exact hov (ha.symm.trans hb.2.2)
  have htot : c1.off = total (y.map Item.blk) ∧ c1.len = w.overflowLen := by
    have key : ∀ {c c' : Cur} {its : List Item}, Run w c its c' → c.InBase w → c.off ≤ c.len → ∀ a b, its = a ++ b →
        takeFit (c.len - c.off) (its.map Item.blk) = (a.map Item.blk, b.map Item.blk) → b ≠ [] →
        c'.off = total (b.map Item.blk) ∧ c'.len = w.overflowLen := by
      intro c c' its hr
      induction hr with
      | nil c => intro _ _ a b hab _ hb; simp at hab; exact absurd hab.2 hb
      | @stay c c' bl its hfit t ih =>
        intro hc hle a b hab ht hb
        rw [List.map_cons, takeFit, if_pos (by simp only; omega)] at ht
        cases a with
        | nil => simp at ht
        | cons a0 a =>
          simp only [List.cons_append, List.cons.injEq] at hab
          simp only [List.map_cons, Prod.mk.injEq, List.cons.injEq] at ht
          refine ih hc hfit a b hab.2 ?_ hb
          simp only at ht ⊢
          rw [show c.len - (c.off + bl.size) = c.len - c.off - bl.size by omega]
          exact Prod.ext ht.1.2 ht.2
      | @switch c c' bl its hno ha t ih =>
        intro hc hle a b hab ht hb
        rw [List.map_cons, takeFit, if_neg (by simp only; omega)] at ht
        have ha0 : a = [] := by
          cases a with
          | nil => rfl
          | cons _ _ => simp at ht
        subst ha0
        simp only [List.nil_append] at hab
        obtain ⟨-, j2, j3, -⟩ := t.over ⟨rfl, rfl, rfl⟩
        rw [← hab]
        refine ⟨?_, j2.2.1⟩
        rw [j3]
        simp [total]
    exact key hrun hc hle x y hxy ht hyne
  have hne2 : (takeFit (c.len - c.off) (its.map Item.blk)).2 ≠ [] := by rw [ht]; simpa using hyne
  rw [takeFit_append _ _ _ hne2, ht]
  simp only [total, List.map_append, List.sum_append, List.map_cons, List.sum_cons, List.length_append, List.length_cons, List.length_map] at *
  constructor
  · omega
  · have := List.length_pos_iff.mpr hyne
    omega

/-! With a placement, building can only panic. -/

theorem panicOnly_splice (rom : Rom) (n : Nat) (d : List UInt8) : PanicOnly (spliceRom rom n d) := by
  unfold spliceRom
  split_ifs
  · exact panicOnly_ok _
  · exact panicOnly_panicked

theorem panicOnly_pokeTrackAddr (rom : Rom) (addrs : List Nat) (t p : Nat) : PanicOnly (pokeTrackAddr rom addrs t p) := by
  unfold pokeTrackAddr
  split
  · exact panicOnly_panicked
  · exact panicOnly_pokes _ _

theorem panicOnly_writePartTracks (addrs : List Nat) : ∀ (ts : List Nat) (p : Nat) (rom : Rom), PanicOnly (writePartTracks addrs ts p rom) := by
  intro ts
  induction ts with
  | nil => intro p rom; exact panicOnly_ok _
  | cons t ts ih => intro p rom; rw [writePartTracks]; exact (panicOnly_pokeTrackAddr _ _ _ _).bind fun _ _ => ih _ _

theorem panicOnly_trackLoop {w : Walk} {v : Bool} {so : Nat} {song : Song} : ∀ (is : List Nat) {st : TrackLoop} {r : List Placed × Cur},
    placeTracks w v so song is st.cur = .ok r → PanicOnly (is.foldlM (writeSongTrack w v so song) st) := by
  intro is
  induction is with
  | nil => intro st r _; exact panicOnly_pure _
  | cons i is ih =>
    intro st r h
    rw [placeTracks, res_bind] at h
    obtain ⟨o, ho, h⟩ := h
    rw [res_bind] at h
    obtain ⟨s, hs, h⟩ := h
    rw [res_bind] at h
    obtain ⟨r', hr, -⟩ := h
    have hs' : switchChunk w v so st.trackOffset o.bytes.length st.romAddr st.chunkLength st.aramBaseAddr = .ok s := hs
    rw [List.foldlM_cons]
    refine PanicOnly.bind ?_ ?_
    · unfold writeSongTrack
      rw [ho]
      simp only [bind, Except.bind]
      rw [hs']
      simp only
      split
      · have := panicOnly_splice st.rom (s.2.2.1 + s.2.1) o.bytes
        cases hsp : spliceRom st.rom (s.2.2.1 + s.2.1) o.bytes with
        | ok r => exact panicOnly_pure _
        | error e =>
          rw [this e hsp]
          intro e' he'
          cases he'
          rfl
      · exact panicOnly_pure _
    · intro st1 h1
      obtain ⟨o', s', ho', hs2, -, rfl⟩ := writeSongTrack_ok.mp h1
      rw [ho] at ho'
      cases ho'
      rw [hs'] at hs2
      cases hs2
      exact ih hr

theorem panicOnly_writeSong {w : Walk} {v : Bool} {st : BankState} {song : Song} {loops : Bool} {r : PlacedSong × Cur}
    (h : placeSong w v st.cur st.songTableAddr song loops = .ok r) : PanicOnly (writeSong w v st song loops) := by
  unfold placeSong at h
  rw [res_bind] at h
  obtain ⟨s, hs, h⟩ := h
  rw [res_bind] at h
  obtain ⟨r', hr, h⟩ := h
  rw [res_bind] at h
  obtain ⟨part, hpart, -⟩ := h
  have hs' : switchChunk w v st.songOffset st.songOffset (songHeaderSize loops + 16) st.romAddr st.chunkLength st.aramBaseAddr = .ok s := hs
  unfold writeSong
  refine PanicOnly.bind (by rw [hs']; exact panicOnly_ok _) fun s2 hs2 => ?_
  rw [hs'] at hs2
  cases hs2
  obtain ⟨a, b, c, d, e⟩ := s
  simp only
  refine (panicOnly_pokes _ _).bind fun _ _ => (panicOnly_pokes _ _).bind fun _ _ => PanicOnly.bind (panicOnly_trackLoop _ hr) fun _ _ =>
    (panicOnly_pokes _ _).bind fun _ _ => PanicOnly.bind (by rw [hpart]; exact panicOnly_ok _) fun _ _ =>
    (panicOnly_writePartTracks _ _ _ _).bind fun _ _ => PanicOnly.bind ?_ fun _ _ => panicOnly_pure _
  exact panicOnly_foldlM _ _ (fun _ _ => panicOnly_pokeTrackAddr _ _ _ _) _

theorem panicOnly_songLoop {Path : Type} {conv : Converter Path} {w : Walk} {v : Bool} : ∀ (ds : List (SongDef Path)) {st : BankState} {r : List PlacedSong × Cur},
    placeBank conv w v ds st.cur st.songTableAddr = .ok r → PanicOnly (ds.foldlM (fun st d => do
      let song ← loadSong conv d
      writeSong w v st song d.loops) st) := by
  intro ds
  induction ds with
  | nil => intro st r _; exact panicOnly_pure _
  | cons d ds ih =>
    intro st r h
    rw [placeBank, res_bind] at h
    obtain ⟨song, hsong, h⟩ := h
    rw [res_bind] at h
    obtain ⟨⟨s, c⟩, hs, h⟩ := h
    rw [res_bind] at h
    obtain ⟨r', hr, -⟩ := h
    rw [List.foldlM_cons]
    refine PanicOnly.bind ?_ ?_
    · rw [hsong]
      exact panicOnly_writeSong hs
    · intro st1 h1
      rw [hsong] at h1
      obtain ⟨s', c', hs', -, -, rfl⟩ := writeSong_ok.mp h1
      rw [hs] at hs'
      cases hs'
      exact ih hr

theorem panicOnly_writeBank {Path : Type} {conv : Converter Path} {v : Bool} {songs : List (SongDef Path)} {rom : Rom} {base first fs : Nat} {w : Walk}
    {r : List PlacedSong × Cur} (hw : findChunks rom base = .ok w)
    (h : placeBank conv w v songs (startCur w first) (w.baseAddr + 2 * fs) = .ok r) : PanicOnly (writeBank conv v songs rom base first fs) := by
  unfold writeBank
  refine PanicOnly.bind (by rw [hw]; exact panicOnly_ok _) fun w' hw' => ?_
  rw [hw] at hw'
  cases hw'
  refine (panicOnly_subU _ _).bind fun so hso => ?_
  obtain ⟨-, hso⟩ := subU_ok.mp hso
  rw [hso]
  refine PanicOnly.bind ?_ fun _ _ => panicOnly_pokes _ _
  refine panicOnly_songLoop _ (r := r) ?_
  rw [Nat.mul_comm fs 2]
  exact h

end M2S
