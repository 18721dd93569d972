import Verif.Spec.Local
import Verif.Proofs.RomJobs
import Verif.Proofs.Verbose
/-
Two builds that have some songs in common.
-/
namespace M2S
open RomSpec

/-! Runs. -/

theorem Run.endPos {w : Walk} {c c' : Cur} {its : List Item} (h : Run w c its c') (hc : c.InBase w) (hle : c.off ≤ c.len) :
    if (takeFit (c.len - c.off) (its.map Item.blk)).2 = [] then c'.InBase w ∧ c'.off = c.off + total (takeFit (c.len - c.off) (its.map Item.blk)).1
    else c'.InOver w ∧ c'.off = total (takeFit (c.len - c.off) (its.map Item.blk)).2 := by
  induction h with
  | nil c => simp [takeFit, total, hc]
  | @stay c c' b its hfit t ih =>
    have := ih hc hfit
    simp only at this
    have htf : takeFit (c.len - c.off) (List.map Item.blk (⟨b, c, false⟩ :: its)) =
        (b :: (takeFit (c.len - (c.off + b.size)) (its.map Item.blk)).1, (takeFit (c.len - (c.off + b.size)) (its.map Item.blk)).2) := by
      rw [List.map_cons, takeFit, if_pos (by simp only; omega), show c.len - c.off - b.size = c.len - (c.off + b.size) by omega]
    rw [htf]
    simp only
    split at this
    · rename_i h
      rw [if_pos h]
      refine ⟨this.1, ?_⟩
      rw [this.2]
      simp [total]; omega
    · rename_i h
      rw [if_neg h]
      exact this
  | @switch c c' b its hno ha t ih =>
    obtain ⟨-, j2, j3, -⟩ := t.over ⟨rfl, rfl, rfl⟩
    have htf : takeFit (c.len - c.off) (List.map Item.blk (⟨b, ⟨w.overflowAddr, w.overflowLen, w.overflowAram, 0⟩, true⟩ :: its)) = ([], b :: its.map Item.blk) := by
      rw [List.map_cons, takeFit, if_neg (by simp only; omega)]
    rw [htf, if_neg (by simp)]
    refine ⟨j2, ?_⟩
    rw [j3]; simp [total]

/-- The cursors of a run depend only on the sizes of the blocks. -/
theorem Run.sizes {w : Walk} {c c' : Cur} {its : List Item} (h : Run w c its c') : ∀ {its' : List Item} {c'' : Cur}, Run w c its' c'' →
    its.map (fun i => i.blk.size) = its'.map (fun i => i.blk.size) → c' = c'' ∧ its.map Item.cur = its'.map Item.cur := by
  induction h with
  | nil c =>
    intro its' c'' h' he
    cases h' with
    | nil => exact ⟨rfl, rfl⟩
    | stay => simp at he
    | switch => simp at he
  | stay hfit t ih =>
    intro its' c'' h' he
    cases h' with
    | nil => simp at he
    | stay hfit' t' =>
      simp only [List.map_cons, List.cons.injEq] at he
      obtain ⟨h1, h2⟩ := ih (by rw [he.1]; exact t') he.2
      exact ⟨h1, by rw [List.map_cons, List.map_cons, h2]⟩
    | switch hno ha t' => simp only [List.map_cons, List.cons.injEq] at he; omega
  | switch hno ha t ih =>
    intro its' c'' h' he
    cases h' with
    | nil => simp at he
    | stay hfit' t' => simp only [List.map_cons, List.cons.injEq] at he; omega
    | switch hno' ha' t' =>
      simp only [List.map_cons, List.cons.injEq] at he
      obtain ⟨h1, h2⟩ := ih (by rw [he.1]; exact t') he.2
      exact ⟨h1, by rw [List.map_cons, List.map_cons, h2]⟩

/-! Placing. -/

theorem placeBank_congr {P Q : Type} {conv : Converter P} {conv' : Converter Q} {w : Walk} {v : Bool} {ds : List (SongDef P)} {ds' : List (SongDef Q)}
    (h : List.Forall₂ (Unedited conv conv') ds ds') : ∀ (c : Cur) (t : Nat), placeBank conv w v ds c t = placeBank conv' w v ds' c t := by
  induction h with
  | nil => intro c t; rfl
  | cons h1 _ ih => intro c t; simp only [placeBank, ih, h1.1, h1.2]

theorem placeBank_at {P : Type} {conv : Converter P} {w : Walk} {v : Bool} : ∀ (n : Nat) {ds : List (SongDef P)} {c c' : Cur} {t : Nat} {ps : List PlacedSong},
    n ≤ ds.length → placeBank conv w v ds c t = .ok (ps, c') →
    ∃ cn, placeBank conv w v (ds.take n) c t = .ok (ps.take n, cn) ∧ placeBank conv w v (ds.drop n) cn (t + 2 * n) = .ok (ps.drop n, c') := by
  intro n
  induction n with
  | zero => intro ds c c' t ps _ h; exact ⟨c, rfl, by simpa using h⟩
  | succ n ih =>
    intro ds c c' t ps hn h
    cases ds with
    | nil => simp at hn
    | cons d ds =>
      rw [placeBank, res_bind] at h
      obtain ⟨song, hsong, h⟩ := h
      rw [res_bind] at h
      obtain ⟨⟨s, c1⟩, hs, h⟩ := h
      rw [res_bind] at h
      obtain ⟨⟨ps1, c2⟩, hps, heq⟩ := h
      rw [res_pure] at heq
      cases heq
      obtain ⟨cn, h1, h2⟩ := ih (by simpa using hn) hps
      refine ⟨cn, ?_, ?_⟩
      · rw [List.take_succ_cons, placeBank, res_bind]
        refine ⟨song, hsong, ?_⟩
        rw [res_bind]
        refine ⟨_, hs, ?_⟩
        rw [res_bind]
        exact ⟨_, h1, by rw [res_pure]; rfl⟩
      · rw [List.drop_succ_cons, List.drop_succ_cons, show t + 2 * (n + 1) = t + 2 + 2 * n by omega]
        exact h2

theorem sameSize_items {s s' : PlacedSong} (h : SameSize s.enc s'.enc) : s.items.map (fun i => i.blk.size) = s'.items.map (fun i => i.blk.size) := by
  obtain ⟨h1, h2⟩ := h
  simp only [PlacedSong.enc] at h1 h2
  simp only [List.map_map, Function.comp_def] at h2
  simp only [PlacedSong.items, List.map_cons, List.map_map, Function.comp_def, Placed.item, h1, h2]

/-- Songs of the same sizes are placed in the same way. -/
theorem placeBank_sizes {P Q : Type} {conv : Converter P} {conv' : Converter Q} {w : Walk} {v : Bool} : ∀ {ds : List (SongDef P)} {ds' : List (SongDef Q)} {c c1 c2 : Cur} {t : Nat}
    {ps ps' : List PlacedSong}, placeBank conv w v ds c t = .ok (ps, c1) → placeBank conv' w v ds' c t = .ok (ps', c2) →
    List.Forall₂ SameSize (ps.map PlacedSong.enc) (ps'.map PlacedSong.enc) →
    List.Forall₂ (fun s s' => s.table = s'.table ∧ s.aram = s'.aram ∧ s.items.map Item.pos = s'.items.map Item.pos ∧
      s.items.map (fun i => i.blk.size) = s'.items.map (fun i => i.blk.size)) ps ps' ∧
    ∀ (n : Nat) (d : SongDef P) (d' : SongDef Q), ds[n]? = some d → ds'[n]? = some d' → Unedited conv conv' d d' → ps[n]? = ps'[n]? := by
  intro ds
  induction ds with
  | nil =>
    intro ds' c c1 c2 t ps ps' h h' hs
    cases h
    cases ps' with
    | nil => exact ⟨.nil, by simp⟩
    | cons => cases hs
  | cons d ds ih =>
    intro ds' c c1 c2 t ps ps' h h' hs
    rw [placeBank, res_bind] at h
    obtain ⟨song, hsong, h⟩ := h
    rw [res_bind] at h
    obtain ⟨⟨s, b1⟩, hs1, h⟩ := h
    rw [res_bind] at h
    obtain ⟨⟨qs, b2⟩, hps, heq⟩ := h
    rw [res_pure] at heq
    cases heq
    cases ds' with
    | nil => cases h'; cases hs
    | cons d' ds' =>
      rw [placeBank, res_bind] at h'
      obtain ⟨song', hsong', h'⟩ := h'
      rw [res_bind] at h'
      obtain ⟨⟨s', b1'⟩, hs1', h'⟩ := h'
      rw [res_bind] at h'
      obtain ⟨⟨qs', b2'⟩, hps', heq⟩ := h'
      rw [res_pure] at heq
      cases heq
      simp only [List.map_cons] at hs
      cases hs with
      | cons hsz hs =>
      obtain ⟨r1, f1⟩ := placeSong_run hs1
      obtain ⟨r2, f2⟩ := placeSong_run hs1'
      obtain ⟨e1, e2⟩ := r1.sizes r2 (sameSize_items hsz)
      subst e1
      obtain ⟨i1, i2⟩ := ih hps hps' hs
      have hhead : s.head = s'.head := by
        simp only [PlacedSong.items, List.map_cons, List.cons.injEq] at e2
        exact e2.1
      refine ⟨.cons ⟨f1.htable.trans f2.htable.symm, by unfold PlacedSong.aram; rw [hhead], ?_, sameSize_items hsz⟩ i1, ?_⟩
      · have := congrArg (List.map Cur.pos) e2
        rw [List.map_map, List.map_map] at this
        exact this
      · intro n x x' hx hx' hu
        cases n with
        | zero =>
          simp only [List.getElem?_cons_zero, Option.some.injEq] at hx hx' ⊢
          subst hx; subst hx'
          rw [hu.1, hsong', Except.ok.injEq] at hsong
          subst hsong
          rw [hu.2, hs1', Except.ok.injEq, Prod.mk.injEq] at hs1
          exact hs1.1.symm
        | succ n =>
          simp only [List.getElem?_cons_succ] at hx hx' ⊢
          exact i2 n x x' hx hx' hu

/-! One bank, built in two ways. -/

theorem writeBank_quiet {P : Type} {conv : Converter P} {v : Bool} {ds : List (SongDef P)} {rom r : Rom} {base first fs : Nat}
    (h : writeBank conv v ds rom base first fs = .ok r) : writeBank conv false ds rom base first fs = .ok r := by
  cases v with
  | false => exact h
  | true =>
    rcases writeBank_orPanic conv ds rom base first fs with e | e
    · rw [← e]; exact h
    · rw [e] at h; cases h

/-- Where a bank's `n`-th song begins. -/
theorem placeBank_endOf {P : Type} {conv : Converter P} {b : Bank} {w : Walk} {ds : List (SongDef P)} {c : Cur} {t first : Nat} {ps : List PlacedSong}
    (e1 : w.baseAddr = b.songs.data) (e2 : w.baseLen = b.songs.len) (e3 : w.overflowAddr = b.over.data) (hroom : first - 0xd000 ≤ b.songs.len)
    (h : placeBank conv w false ds (startCur w first) t = .ok (ps, c)) : c.pos = b.endOf (first - 0xd000) (blocks (ps.map PlacedSong.enc)) := by
  obtain ⟨hrun, -⟩ := placeBank_run _ h
  have e4 : aramBase = 0xd000 := rfl
  have := hrun.endPos (c := startCur w first) ⟨rfl, rfl, rfl⟩ (by simp only [startCur]; rw [e2, e4]; exact hroom)
  rw [items_blocks] at this
  simp only [startCur, e2, e4] at this
  unfold Bank.endOf Cur.pos
  split at this
  · rename_i hh
    rw [if_pos hh, this.1.1, this.2, e1]
    omega
  · rename_i hh
    rw [if_neg hh, this.1.1, this.2, e3]

/-- Both builds of a bank, with the placements of their songs. -/
structure TwoBuilt {P Q : Type} (conv : Converter P) (conv' : Converter Q) (ds : List (SongDef P)) (ds' : List (SongDef Q)) (b : Bank) (first fs : Nat)
    (es es' : List Encoded) (a a' r r' : Rom) (w : Walk) (ps ps' : List PlacedSong) (c c' : Cur) : Prop where
  base : w.baseAddr = b.songs.data
  len : w.baseLen = b.songs.len
  over : w.overflowAddr = b.over.data
  ordered : w.Ordered
  low : aramBase ≤ first
  pl : placeBank conv w false ds (startCur w first) (b.songs.data + 2 * fs) = .ok (ps, c)
  pl' : placeBank conv' w false ds' (startCur w first) (b.songs.data + 2 * fs) = .ok (ps', c')
  built : Built b ⟨w, first, b.songs.data + 2 * fs, ps⟩ first fs es a r
  built' : Built b ⟨w, first, b.songs.data + 2 * fs, ps'⟩ first fs es' a' r'

theorem twoBuilt {P Q : Type} {conv : Converter P} {conv' : Converter Q} {v v' : Bool} {ds : List (SongDef P)} {ds' : List (SongDef Q)} {b : Bank} {base first fs : Nat}
    {es es' : List Encoded} {a a' r r' : Rom} (hb : base + 8 < 2 ^ 24) (hin : b.In (ofRom a) base) (hin' : b.In (ofRom a') base)
    (hes : List.Forall₂ (EncodedOf conv) ds es) (hes' : List.Forall₂ (EncodedOf conv') ds' es')
    (hfit : Fits b.songs.len b.over.len (first - 0xd000) fs es) (hfit' : Fits b.songs.len b.over.len (first - 0xd000) fs es')
    (h : writeBank conv v ds a base first fs = .ok r) (h' : writeBank conv' v' ds' a' base first fs = .ok r') :
    ∃ w ps ps' c c', TwoBuilt conv conv' ds ds' b first fs es es' a a' r r' w ps ps' c c' := by
  obtain ⟨w, ps, c, hw, hfirst, hpl, -, hrange, hr⟩ := writeBank_ok.mp (writeBank_quiet h)
  obtain ⟨w', ps', c', hw', -, hpl', -, hrange', hr'⟩ := writeBank_ok.mp (writeBank_quiet h')
  have hl := laid_of_placed hb hin hes hfit hw hfirst hpl
  have hl' := laid_of_placed hb hin' hes' hfit' hw' hfirst hpl'
  obtain ⟨w1, hw1, e1, e2, e3, e4, e5⟩ := bankIn_found hb hin
  obtain ⟨w2, hw2, f1, f2, f3, f4, f5⟩ := bankIn_found hb hin'
  rw [hw] at hw1
  cases hw1
  rw [hw'] at hw2
  cases hw2
  have hcore : w.core = w'.core := by
    unfold Walk.core
    rw [e1, e2, e3, e4, e5, f1, f2, f3, f4, f5]
  have hst : startCur w first = startCur w' first := by unfold startCur; rw [e1, e2, f1, f2]
  have hbank : ∀ ps, PlacedBank.writes ⟨w', first, w'.baseAddr + 2 * fs, ps⟩ = PlacedBank.writes ⟨w, first, b.songs.data + 2 * fs, ps⟩ := by
    intro ps
    unfold PlacedBank.writes
    simp only
    rw [e1, f1]
  refine ⟨w, ps, ps', c, c', e1, e2, e3, ?_, hfirst, by rw [← e1]; exact hpl, ?_, ⟨by rw [← e1]; exact hl, by rw [← e1]; exact hr, by rw [← e1]; exact hrange⟩,
    ⟨⟨⟨hl'.good.songs, hl'.good.order, ?_, ?_, ?_⟩, hl'.enc, rfl, rfl, e1, hl'.items⟩, by rw [← hbank]; exact hr', by rw [← hbank]; exact hrange'⟩⟩
  · have := bankIn_over_pos hin
    unfold Walk.Ordered
    rw [e1, e2, e3]
    unfold ChunkInfo.next at this
    unfold ChunkInfo.data
    omega
  · rw [← placeBank_core, hcore, placeBank_core, hst, ← f1]
    exact hpl'
  · have := hl'.good.table
    rw [f1] at this
    exact this
  · have := hl'.good.room
    simp only [f1] at this
    simp only [e1]
    exact this
  · have := hl'.good.behind
    simp only [f1] at this
    simp only [e1]
    exact this

theorem applyW_differ {a a' : Rom} {ws ws' : List (Nat × UInt8)} {q : Nat} (hl : a.length = a'.length) (h : lastW q ws = lastW q ws')
    (hd : (applyW a ws)[q]? ≠ (applyW a' ws')[q]?) : a[q]? ≠ a'[q]? := by
  intro he
  apply hd
  by_cases hq : q < a.length
  · rw [applyW_get _ _ _ hq, applyW_get _ _ _ (by omega), h, he]
  · rw [List.getElem?_eq_none (by rw [applyW_length]; omega), List.getElem?_eq_none (by rw [applyW_length]; omega)]

/-- The part of the writes behind the first `n` songs. -/
theorem TwoBuilt.rest {P : Type} {conv : Converter P} {ds : List (SongDef P)} {b : Bank} {first fs : Nat} {es : List Encoded} {a r : Rom} {w : Walk} {ps : List PlacedSong} {c : Cur}
    (base : w.baseAddr = b.songs.data) (len : w.baseLen = b.songs.len) (over : w.overflowAddr = b.over.data) (ordered : w.Ordered) (low : aramBase ≤ first)
    (pl : placeBank conv w false ds (startCur w first) (b.songs.data + 2 * fs) = .ok (ps, c))
    (built : Built b ⟨w, first, b.songs.data + 2 * fs, ps⟩ first fs es a r) (hroom : first - 0xd000 ≤ b.songs.len) {n : Nat} (hn : n ≤ ds.length) :
    ∃ rest, PlacedBank.writes ⟨w, first, b.songs.data + 2 * fs, ps⟩ = songsWrites (ps.take n) ++ rest ∧ ∀ x ∈ rest, b.Beyond (first - 0xd000) fs es n x.1 := by
  obtain ⟨cn, h1, h2⟩ := placeBank_at n hn pl
  have hlen : ps.length = ds.length := placeBank_length _ pl
  have e0 : aramBase = 0xd000 := rfl
  refine ⟨songsWrites (ps.drop n) ++ fillWrites (b.songs.data + 2 * fs + 2 * ps.length) (w.baseAddr + first - aramBase), ?_, ?_⟩
  · unfold PlacedBank.writes
    simp only
    rw [← List.append_assoc]
    congr 1
    unfold songsWrites
    rw [← List.flatMap_append, List.take_append_drop]
  · intro x hx
    have henc : blocks (es.take n) = blocks ((ps.take n).map PlacedSong.enc) := by
      have := built.enc
      simp only at this
      rw [← this, List.map_take]
    have hend := placeBank_endOf base len over hroom h1
    rw [← henc] at hend
    have hroom2 := built.good.room
    simp only at hroom2
    rcases List.mem_append.mp hx with hx | hx
    · obtain ⟨s, hs, hxs⟩ := List.mem_flatMap.mp hx
      have hs' : s ∈ ps := List.mem_of_mem_drop hs
      rcases PlacedSong.writes_range (built.good.songs s hs') hxs with he | ⟨i, hi, hh⟩
      · left
        obtain ⟨m, hm, hsm⟩ := List.getElem_of_mem hs
        rw [List.length_drop] at hm
        rw [List.getElem_drop] at hsm
        have ht := built.good.table (n + m) s (by simp only; rw [List.getElem?_eq_getElem (by omega), hsm])
        simp only at ht
        unfold PlacedSong.Entry at he
        omega
      · right
        rw [← hend]
        obtain ⟨hrun1, -⟩ := placeBank_run _ h1
        obtain ⟨hrun2, -⟩ := placeBank_run _ h2
        have hok := (hrun1.mono ordered (.inl ⟨⟨rfl, rfl, rfl⟩, by simp only [startCur]; rw [len, e0]; exact hroom⟩)).1
        have := (hrun2.mono ordered hok).2.2.1 i (List.mem_flatMap.mpr ⟨s, hs, hi⟩)
        unfold Item.Has at hh
        omega
    · have := mem_fillWrites hx
      left
      omega

/-- The bytes that two builds of a bank, whose first `n` songs are the same, write in different ways are behind these songs. -/
theorem TwoBuilt.beyond {P Q : Type} {conv : Converter P} {conv' : Converter Q} {ds : List (SongDef P)} {ds' : List (SongDef Q)} {b : Bank} {first fs : Nat}
    {es es' : List Encoded} {a a' r r' : Rom} {w : Walk} {ps ps' : List PlacedSong} {c c' : Cur}
    (h : TwoBuilt conv conv' ds ds' b first fs es es' a a' r r' w ps ps' c c') (hl : a.length = a'.length) (hroom : first - 0xd000 ≤ b.songs.len)
    {n : Nat} (hn : n ≤ ds.length) (hn' : n ≤ ds'.length) (hu : List.Forall₂ (Unedited conv conv') (ds.take n) (ds'.take n)) {q : Nat} (hd : r[q]? ≠ r'[q]?) :
    a[q]? ≠ a'[q]? ∨ b.Beyond (first - 0xd000) fs es n q := by
  rw [or_iff_not_imp_right]
  intro hnb
  obtain ⟨rest, h1, h2⟩ := TwoBuilt.rest h.base h.len h.over h.ordered h.low h.pl h.built hroom hn
  obtain ⟨rest', h1', h2'⟩ := TwoBuilt.rest h.base h.len h.over h.ordered h.low h.pl' h.built' hroom hn'
  obtain ⟨cn, g1, -⟩ := placeBank_at n hn h.pl
  obtain ⟨cn', g1', -⟩ := placeBank_at n hn' h.pl'
  rw [placeBank_congr hu, g1', Except.ok.injEq, Prod.mk.injEq] at g1
  have henc : es'.take n = es.take n := by
    have i1 := h.built.enc
    have i2 := h.built'.enc
    simp only at i1 i2
    rw [← i1, ← i2, ← List.map_take, ← List.map_take, g1.1]
  have hb' : ∀ x ∈ rest', b.Beyond (first - 0xd000) fs es n x.1 := by
    intro x hx
    have := h2' x hx
    unfold Bank.Beyond at this ⊢
    rwa [henc] at this
  rw [h.built.result, h.built'.result] at hd
  refine applyW_differ hl ?_ hd
  have n1 : lastW q rest = none := lastW_none.mpr fun x hx e => hnb (e ▸ h2 x hx)
  have n2 : lastW q rest' = none := lastW_none.mpr fun x hx e => hnb (e ▸ hb' x hx)
  rw [h1, h1', lastW_append, lastW_append, g1.1, n1, n2]

theorem has_of_pos {s s' : PlacedSong} (h1 : s.items.map Item.pos = s'.items.map Item.pos)
    (h2 : s.items.map (fun i => i.blk.size) = s'.items.map (fun i => i.blk.size)) {q : Nat} (h : ∃ i ∈ s'.items, i.Has q) : ∃ i ∈ s.items, i.Has q := by
  obtain ⟨i, hi, hh⟩ := h
  obtain ⟨m, hm, hi⟩ := List.getElem_of_mem hi
  have hlen : s.items.length = s'.items.length := by simpa using congrArg List.length h1
  refine ⟨s.items[m]'(by omega), List.getElem_mem _, ?_⟩
  have k1 : (s.items[m]'(by omega)).pos = i.pos := by
    have := congrArg (fun l => l[m]?) h1
    simp only [List.getElem?_map, List.getElem?_eq_getElem hm, List.getElem?_eq_getElem (show m < s.items.length by omega), Option.map_some, Option.some.injEq] at this
    rw [this, hi]
  have k2 : (s.items[m]'(by omega)).blk.size = i.blk.size := by
    have := congrArg (fun l => l[m]?) h2
    simp only [List.getElem?_map, List.getElem?_eq_getElem hm, List.getElem?_eq_getElem (show m < s.items.length by omega), Option.map_some, Option.some.injEq] at this
    rw [this, hi]
  unfold Item.Has at hh ⊢
  rw [k1, k2]
  exact hh

/-- If all songs have the same sizes, the bytes that are written in different ways are inside songs that differ. -/
theorem TwoBuilt.within {P Q : Type} {conv : Converter P} {conv' : Converter Q} {ds : List (SongDef P)} {ds' : List (SongDef Q)} {b : Bank} {first fs : Nat}
    {es es' : List Encoded} {a a' r r' : Rom} {w : Walk} {ps ps' : List PlacedSong} {c c' : Cur}
    (h : TwoBuilt conv conv' ds ds' b first fs es es' a a' r r' w ps ps' c c') (hl : a.length = a'.length) (hroom : first - 0xd000 ≤ b.songs.len)
    (hs : List.Forall₂ SameSize es es') {q : Nat} (hd : r[q]? ≠ r'[q]?) :
    a[q]? ≠ a'[q]? ∨ ∃ (n : Nat) (d : SongDef P) (d' : SongDef Q), ds[n]? = some d ∧ ds'[n]? = some d' ∧ ¬ Unedited conv conv' d d' ∧ b.Within (first - 0xd000) es n q := by
  rw [or_iff_not_imp_right]
  intro hno
  have i1 := h.built.enc
  have i2 := h.built'.enc
  simp only at i1 i2
  rw [← i1, ← i2] at hs
  obtain ⟨k1, k2⟩ := placeBank_sizes h.pl h.pl' hs
  have l1 : ps.length = ds.length := placeBank_length _ h.pl
  have l2 : ps'.length = ds'.length := placeBank_length _ h.pl'
  have l3 : ps.length = ps'.length := k1.length_eq
  have e0 : aramBase = 0xd000 := rfl
  rw [h.built.result, h.built'.result] at hd
  refine applyW_differ hl ?_ hd
  have hall : ∀ (n : Nat) (s s' : PlacedSong), ps[n]? = some s → ps'[n]? = some s' → s = s' ∨ ∀ i ∈ s.items, ¬ i.Has q := by
    intro n s s' hs hs'
    obtain ⟨hn, hs1⟩ := List.getElem?_eq_some_iff.mp hs
    by_cases hu : Unedited conv conv' (ds[n]'(by omega)) (ds'[n]'(by omega))
    · left
      have := k2 n _ _ (List.getElem?_eq_getElem (by omega)) (List.getElem?_eq_getElem (by omega)) hu
      rw [hs, hs', Option.some.injEq] at this
      exact this
    · right
      intro i hi hh
      refine hno ⟨n, _, _, List.getElem?_eq_getElem (by omega), List.getElem?_eq_getElem (by omega), hu, ?_⟩
      obtain ⟨c0, g1, g2⟩ := placeBank_at n (by omega) h.pl
      obtain ⟨c1, g3, -⟩ := placeBank_at (n + 1) (by omega) h.pl
      have p0 := placeBank_endOf h.base h.len h.over hroom g1
      have p1 := placeBank_endOf h.base h.len h.over hroom g3
      rw [List.map_take, i1] at p0 p1
      unfold Bank.Within
      rw [← p0, ← p1]
      have hok : (startCur w first).Ok w := .inl ⟨⟨rfl, rfl, rfl⟩, by simp only [startCur]; rw [h.len, e0]; exact hroom⟩
      have hmem : s ∈ ps.take (n + 1) := by
        rw [List.take_add_one, hs]; simp
      have m1 := ((placeBank_run _ g3).1.mono h.ordered hok).2.2.1 i (List.mem_flatMap.mpr ⟨s, hmem, hi⟩)
      have hok0 := ((placeBank_run _ g1).1.mono h.ordered hok).1
      have hmem0 : s ∈ ps.drop n := by
        rw [← hs1, List.drop_eq_getElem_cons hn]; exact List.mem_cons_self ..
      have m0 := ((placeBank_run _ g2).1.mono h.ordered hok0).2.2.1 i (List.mem_flatMap.mpr ⟨s, hmem0, hi⟩)
      unfold Item.Has at hh
      omega
  have hg := h.built.good.songs
  have hg' := h.built'.good.songs
  simp only at hg hg'
  have hsongs : lastW q (songsWrites ps) = lastW q (songsWrites ps') := by
    clear hno k2 i1 i2 hs l1 l2 l3 hd hl hroom h e0
    induction k1 with
    | nil => rfl
    | @cons s s' ps ps' he _ ih =>
      obtain ⟨t1, t2, t3, t4⟩ := he
      have hone : lastW q s.writes = lastW q s'.writes := by
        rcases hall 0 s s' rfl rfl with e | e
        · rw [e]
        · rw [PlacedSong.lastW_entry (hg s (List.mem_cons_self ..)) e, PlacedSong.lastW_entry (hg' s' (List.mem_cons_self ..)), t1, t2]
          intro i hi hh
          obtain ⟨i', hi', hh'⟩ := has_of_pos t3 t4 ⟨i, hi, hh⟩
          exact e i' hi' hh'
      have hrest := ih (fun n x x' hx hx' => hall (n + 1) x x' hx hx') (fun s hs => hg s (List.mem_cons_of_mem _ hs)) (fun s hs => hg' s (List.mem_cons_of_mem _ hs))
      unfold songsWrites at hrest ⊢
      rw [List.flatMap_cons, List.flatMap_cons, lastW_append, lastW_append, hone, hrest]
  unfold PlacedBank.writes
  simp only
  rw [lastW_append, lastW_append, hsongs, l3]

/-! Several banks. -/

theorem Forall₂.encoded {P Q : Type} {conv : Converter P} {conv' : Converter Q} : ∀ {ds : List (SongDef P)} {ds' : List (SongDef Q)} {es es' : List Encoded},
    List.Forall₂ (Unedited conv conv') ds ds' → List.Forall₂ (EncodedOf conv) ds es → List.Forall₂ (EncodedOf conv') ds' es' → List.Forall₂ SameSize es es' := by
  intro ds ds' es es' h
  induction h generalizing es es' with
  | nil => intro h1 h2; cases h1; cases h2; exact .nil
  | @cons d d' ds ds' hu _ ih =>
    intro h1 h2
    cases h1 with
    | @cons _ e _ es h1 t1 =>
    cases h2 with
    | @cons _ e' _ es' h2 t2 =>
    refine .cons ?_ (ih t1 t2)
    have : EncodedOf conv' d' e := by
      obtain ⟨song, k1, k2, k3, k4⟩ := h1
      exact ⟨song, by rw [← hu.1]; exact k1, by rw [← hu.2]; exact k2, k3, k4⟩
    rw [EncodedOf.det d' e e' this h2]
    exact ⟨rfl, rfl⟩

theorem writeBanks_local {P Q : Type} {conv : Converter P} {conv' : Converter Q} {v v' : Bool} {js : List (Job P)} {ks : List (Job Q)} (hp : List.Forall₂ SamePlace js ks) :
    ∀ {fs : Nat} {a a' r r' : Rom}, a.length = a'.length → AllReady conv (ofRom a) fs js → AllReady conv' (ofRom a') fs ks → HeadersSafe js →
    writeBanks conv v (js.map Job.args) a fs = .ok r → writeBanks conv' v' (ks.map Job.args) a' fs = .ok r' → ∀ q, r[q]? ≠ r'[q]? →
    a[q]? ≠ a'[q]? ∨ ∃ pre j post pre' k post', js = pre ++ j :: post ∧ ks = pre' ++ k :: post' ∧ pre.length = pre'.length ∧
      Affected conv conv' (fs + (pre.map fun i => i.songs.length).sum) j k q := by
  induction hp with
  | nil =>
    intro fs a a' r r' _ _ _ _ h h' q hq
    cases h; cases h'
    exact .inl hq
  | @cons j k js ks hjk hp ih =>
    intro fs a a' r r' hl hr hr' hsafe h h' q hq
    rw [List.map_cons, Job.args, writeBanks, res_bind] at h h'
    obtain ⟨r1, h1, h⟩ := h
    obtain ⟨r1', h1', h'⟩ := h'
    obtain ⟨B, hB⟩ := built_of_ok hr.1.addr hr.1.bank hr.1.songs hr.1.fits h1
    obtain ⟨B', hB'⟩ := built_of_ok hr'.1.addr hr'.1.bank hr'.1.songs hr'.1.fits h1'
    have hun : ∀ q, ¬ j.bank.Data q → r1[q]? = a[q]? := fun q hq => hB.unchanged hr.1.fits.start hq
    have hun' : ∀ q, ¬ j.bank.Data q → r1'[q]? = a'[q]? := fun q hq => hB'.unchanged hr'.1.fits.start (hjk.bank ▸ hq)
    have hready : AllReady conv (ofRom r1) (fs + j.songs.length) js := by
      refine allReady_congr hr.2 fun i hi q hq => hun q fun hd => ?_
      exact hsafe j (List.mem_cons_self ..) i (List.mem_cons_of_mem _ hi) q hd hq
    have hready' : AllReady conv' (ofRom r1') (fs + j.songs.length) ks := by
      rw [hjk.count]
      refine allReady_congr hr'.2 fun i hi q hq => hun' q fun hd => ?_
      obtain ⟨m, hm, hmi⟩ := List.getElem_of_mem hi
      have hm' : m < js.length := by rw [hp.length_eq]; exact hm
      have hsp : SamePlace js[m] i := by
        rw [← hmi]; exact (List.forall₂_iff_get.mp hp).2 m hm' hm
      rw [← hsp.base, ← hsp.bank] at hq
      exact hsafe j (List.mem_cons_self ..) _ (List.mem_cons_of_mem _ (List.getElem_mem hm')) q hd hq
    rw [← hjk.count] at h'
    rcases ih (hB.length.trans (hl.trans hB'.length.symm)) hready hready' (fun x hx y hy => hsafe x (List.mem_cons_of_mem _ hx) y (List.mem_cons_of_mem _ hy)) h h' q hq with hd | hd
    · have hf : (k.bank.songs.len, k.bank.over.len, k.first) = (j.bank.songs.len, j.bank.over.len, j.first) := by rw [hjk.bank, hjk.first]
      have hb' := hr'.1.bank
      have hfit' := hr'.1.fits
      rw [← hjk.base, ← hjk.first] at h1'
      rw [← hjk.base, ← hjk.bank] at hb'
      rw [← hjk.first, ← hjk.bank] at hfit'
      obtain ⟨w, ps, ps', c, c', T⟩ := twoBuilt hr.1.addr hr.1.bank hb' hr.1.songs hr'.1.songs hr.1.fits hfit' h1 h1'
      by_cases hne : a[q]? ≠ a'[q]?
      · exact .inl hne
      · right
        refine ⟨[], j, js, [], k, ks, rfl, rfl, rfl, ?_, ?_, ?_, ?_⟩
        · intro hall
          rcases T.within hl hr.1.fits.start (Forall₂.encoded hall hr.1.songs hr'.1.songs) hd with e | ⟨n, d, d', e1, e2, e3, -⟩
          · exact hne e
          · obtain ⟨g1, g2⟩ := List.getElem?_eq_some_iff.mp e1
            obtain ⟨g1', g2'⟩ := List.getElem?_eq_some_iff.mp e2
            exact e3 (by rw [← g2, ← g2']; exact (List.forall₂_iff_get.mp hall).2 n g1 g1')
        · by_contra hdat
          rw [hun q hdat, hun' q hdat] at hd
          exact hne hd
        · intro n hn hu
          rcases T.beyond hl hr.1.fits.start hn (hjk.count ▸ hn) hu hd with e | e
          · exact absurd e hne
          · simpa using e
        · intro hs
          rcases T.within hl hr.1.fits.start hs hd with e | e
          · exact absurd e hne
          · exact e
    · right
      obtain ⟨pre, i, post, pre', i', post', e1, e2, e3, e4⟩ := hd
      refine ⟨j :: pre, i, post, k :: pre', i', post', by rw [e1]; rfl, by rw [e2]; rfl, by simp [e3], ?_⟩
      rw [List.map_cons, List.sum_cons, ← Nat.add_assoc]
      exact e4

end M2S
