import Verif.Proofs.RomJobs
/-
How far the blocks of a bank reach.
-/
namespace M2S
open RomSpec

theorem freeTotal_cons (b : Block) (bs : List Block) : total (b :: bs) = b.size + total bs := by simp [total]

theorem Run.ends_over {w : Walk} {c c' : Cur} {its : List Item} (h : Run w c its c') (hc : c.InOver w) :
    ∀ i ∈ its, i.cur.InOver w ∧ i.cur.off + i.blk.size ≤ c.off + total (its.map Item.blk) := by
  induction h with
  | nil c => simp
  | @stay c c' b its hfit t ih =>
    intro i hi
    rw [List.map_cons, freeTotal_cons]
    rcases List.mem_cons.mp hi with rfl | hi
    · exact ⟨hc, by simp only; omega⟩
    · have := ih hc i hi
      simp only at this
      exact ⟨this.1, by simp only; omega⟩
  | switch _ ha => exact absurd hc.2.2 ha

theorem Run.ends {w : Walk} {c c' : Cur} {its : List Item} (h : Run w c its c') (hc : c.InBase w) (hle : c.off ≤ c.len) :
    ∀ i ∈ its, (i.cur.InBase w ∧ i.cur.off + i.blk.size ≤ c.off + total (takeFit (c.len - c.off) (its.map Item.blk)).1) ∨
      (i.cur.InOver w ∧ i.cur.off + i.blk.size ≤ total (takeFit (c.len - c.off) (its.map Item.blk)).2) := by
  induction h with
  | nil c => simp
  | @stay c c' b its hfit t ih =>
    intro i hi
    have := ih hc hfit
    simp only at this
    rw [List.map_cons, takeFit, if_pos (by simp only; omega), freeTotal_cons]
    rw [show c.len - c.off - b.size = c.len - (c.off + b.size) by omega]
    rcases List.mem_cons.mp hi with rfl | hi
    · left; exact ⟨hc, by simp only; omega⟩
    · rcases this i hi with h | h
      · left; exact ⟨h.1, by simp only; omega⟩
      · right; exact h
  | @switch c c' b its hno ha t ih =>
    intro i hi
    rw [List.map_cons, takeFit, if_neg (by simp only; omega)]
    right
    simp only [freeTotal_cons]
    rcases List.mem_cons.mp hi with rfl | hi
    · exact ⟨⟨rfl, rfl, rfl⟩, by simp only; omega⟩
    · exact t.ends_over ⟨rfl, rfl, rfl⟩ i hi

theorem lastW_fill {a b q : Nat} (h1 : a ≤ q) (h2 : q < b) : lastW q (fillWrites a b) = some 0 := by
  have : fillWrites a b = (List.range (b - a)).map fun i => (a + i, (0 : UInt8)) := by
    unfold fillWrites
    rw [List.range'_eq_map_range, List.map_map]
    rfl
  rw [this, show q = a + (q - a) by omega]
  exact lastW_zeros (by omega)

/-- Which bytes of a bank's chunks a build leaves alone, and which it clears. -/
theorem writeBank_rest {Path : Type} {conv : Converter Path} {v : Bool} {songs : List (SongDef Path)} {rom r : Rom} {base first fs : Nat}
    {b : Bank} {es : List Encoded} (hb : base + 8 < 2 ^ 24) (hin : b.In (ofRom rom) base) (hes : List.Forall₂ (EncodedOf conv) songs es)
    (hfit : Fits b.songs.len b.over.len (first - 0xd000) fs es) (h : writeBank conv v songs rom base first fs = .ok r) :
    (∀ q, b.songs.data ≤ q → q < b.songs.data + 2 * fs → r[q]? = rom[q]?) ∧
    (∀ q, b.songs.data + 2 * (fs + songs.length) ≤ q → q < b.songs.data + (first - 0xd000) → r[q]? = some 0) ∧
    (∀ q, b.songs.data + (first - 0xd000) + total (takeFit (b.songs.len - (first - 0xd000)) (blocks es)).1 ≤ q → q < b.songs.next → r[q]? = rom[q]?) ∧
    (∀ q, b.over.data + total (takeFit (b.songs.len - (first - 0xd000)) (blocks es)).2 ≤ q → q < b.over.next → r[q]? = rom[q]?) := by
  obtain ⟨w, ps, c, hw, hfirst, hpl, -, hrange, hr⟩ := writeBank_ok.mp h
  have hL := laid_of_placed hb hin hes hfit hw hfirst hpl
  obtain ⟨w', hw', e1, e2, e3, e4, e5⟩ := bankIn_found hb hin
  rw [hw] at hw'
  cases hw'
  obtain ⟨hrun, -⟩ := placeBank_run _ hpl
  have hl := placeBank_length _ hpl
  have henc : ps.map PlacedSong.enc = es := hL.enc
  have hbl := items_blocks ps
  rw [henc] at hbl
  have e6 : aramBase = 0xd000 := rfl
  have hstart : (startCur w first).off ≤ (startCur w first).len := by
    simp only [startCur]; rw [e2]; exact hfit.start
  have hends := hrun.ends ⟨rfl, rfl, rfl⟩ hstart
  rw [hbl] at hends
  simp only [startCur] at hends
  rw [e2, e6] at hends
  have hpos := bankIn_over_pos hin
  have hs1 := hfit.start
  have ht1 := hfit.table
  have hlen : es.length = songs.length := hes.length_eq.symm
  have hsame : ∀ q, (∀ x ∈ (PlacedBank.mk w first (w.baseAddr + 2 * fs) ps).writes, x.1 ≠ q) → r[q]? = rom[q]? := by
    intro q hq
    by_cases hlt : q < rom.length
    · rw [hr, applyW_get _ _ _ hlt, lastW_none.mpr hq]; rfl
    · rw [List.getElem?_eq_none (by rw [hr, applyW_length]; omega), List.getElem?_eq_none (by omega)]
  have hcase : ∀ x ∈ (PlacedBank.mk w first (w.baseAddr + 2 * fs) ps).writes,
      (b.songs.data + 2 * fs ≤ x.1 ∧ x.1 < b.songs.data + (first - 0xd000)) ∨
      (b.songs.data + (first - 0xd000) ≤ x.1 ∧ x.1 < b.songs.data + (first - 0xd000) + total (takeFit (b.songs.len - (first - 0xd000)) (blocks es)).1) ∨
      (b.over.data ≤ x.1 ∧ x.1 < b.over.data + total (takeFit (b.songs.len - (first - 0xd000)) (blocks es)).2) := by
    intro x hx
    rcases hL.good.range hx with ⟨h1, h2⟩ | ⟨i, hi, hh⟩
    · left
      simp only at h1 h2
      omega
    · right
      unfold Item.Has Item.pos Cur.pos at hh
      rcases hends i hi with ⟨k1, k2⟩ | ⟨k1, k2⟩
      · left
        have h3 := hL.good.behind i hi
        simp only [Item.pos, Cur.pos] at h3
        have := k1.1
        omega
      · right
        have := k1.1
        omega
  have htot := hfit.rest
  have hover : b.over.data = b.songs.data + b.songs.len + 4 := by
    simp only [ChunkInfo.data, ChunkInfo.next] at *
    omega
  have hnext : b.songs.next = b.songs.data + b.songs.len := rfl
  have htake : total (takeFit (b.songs.len - (first - 0xd000)) (blocks es)).1 ≤ b.songs.len - (first - 0xd000) := by
    have : ∀ (l : List Block) (n : Nat), total (takeFit n l).1 ≤ n := by
      intro l
      induction l with
      | nil => intro n; simp [takeFit, total]
      | cons a l ih =>
        intro n
        rw [takeFit]
        split
        · have := ih (n - a.size)
          simp only [freeTotal_cons]
          omega
        · simp [total]
    exact this _ _
  refine ⟨?_, ?_, ?_, ?_⟩
  · intro q h1 h2
    refine hsame q fun x hx hxq => ?_
    rcases hcase x hx with h | h | h <;> omega
  · intro q h1 h2
    have hf : lastW q (fillWrites (w.baseAddr + 2 * fs + 2 * ps.length) (w.baseAddr + first - aramBase)) = some 0 :=
      lastW_fill (by rw [hl]; omega) (by omega)
    have hlt : q < rom.length := by
      have : ∃ x ∈ (PlacedBank.mk w first (w.baseAddr + 2 * fs) ps).writes, x.1 = q := by
        by_contra hno
        have : lastW q (PlacedBank.mk w first (w.baseAddr + 2 * fs) ps).writes = none :=
          lastW_none.mpr fun x hx hxq => hno ⟨x, hx, hxq⟩
        unfold PlacedBank.writes at this
        rw [lastW_append, hf] at this
        cases this
      obtain ⟨x, hx, rfl⟩ := this
      exact hrange x hx
    rw [hr, applyW_get _ _ _ hlt]
    unfold PlacedBank.writes
    rw [lastW_append, hf]
    rfl
  · intro q h1 h2
    refine hsame q fun x hx hxq => ?_
    rcases hcase x hx with h | h | h <;> omega
  · intro q h1 h2
    refine hsame q fun x hx hxq => ?_
    rcases hcase x hx with h | h | h <;> omega

/-- Every bank of a build that is ready is built from a ROM that differs from the first one only in the banks before, and then only the banks behind it change the ROM. -/
theorem writeBanks_each {Path : Type} {conv : Converter Path} {v : Bool} : ∀ {js : List (Job Path)} {fs : Nat} {rom r : Rom},
    AllReady conv (ofRom rom) fs js → HeadersSafe js → writeBanks conv v (js.map Job.args) rom fs = .ok r →
    ∀ pre j post, js = pre ++ j :: post → ∃ rom' r', j.Ready conv (ofRom rom') (fs + (pre.map fun k => k.songs.length).sum) ∧
      writeBank conv v j.songs rom' j.base j.first (fs + (pre.map fun k => k.songs.length).sum) = .ok r' ∧
      (∀ q, (∀ k ∈ pre, ¬ k.bank.Data q) → rom'[q]? = rom[q]?) ∧ (∀ q, (∀ k ∈ post, ¬ k.bank.Data q) → r[q]? = r'[q]?) := by
  intro js
  induction js with
  | nil => intro fs rom r _ _ h pre j post hs; simp at hs
  | cons j js ih =>
    intro fs rom r hready hsafe h pre k post hsplit
    rw [List.map_cons, Job.args, writeBanks, res_bind] at h
    obtain ⟨r1, h1, h⟩ := h
    obtain ⟨B, hB⟩ := built_of_ok hready.1.addr hready.1.bank hready.1.songs hready.1.fits h1
    have hun : ∀ q, ¬ j.bank.Data q → r1[q]? = rom[q]? := fun q hq => hB.unchanged hready.1.fits.start hq
    have hready' : AllReady conv (ofRom r1) (fs + j.songs.length) js := by
      refine allReady_congr hready.2 fun k hk q hq => hun q fun hd => ?_
      exact hsafe j (List.mem_cons_self ..) k (List.mem_cons_of_mem _ hk) q hd hq
    have hsafe' : HeadersSafe js := fun a ha b hb => hsafe a (List.mem_cons_of_mem _ ha) b (List.mem_cons_of_mem _ hb)
    cases pre with
    | nil =>
      simp only [List.nil_append, List.cons.injEq] at hsplit
      obtain ⟨rfl, rfl⟩ := hsplit
      exact ⟨rom, r1, by simpa using hready.1, by simpa using h1, fun _ _ => rfl, (writeBanks_built hready' hsafe' h).2.1⟩
    | cons p pre =>
      simp only [List.cons_append, List.cons.injEq] at hsplit
      obtain ⟨rfl, rfl⟩ := hsplit
      obtain ⟨rom', r', h2, h3, h4, h5⟩ := ih hready' hsafe' h pre k post rfl
      rw [List.map_cons, List.sum_cons, ← Nat.add_assoc]
      exact ⟨rom', r', h2, h3, fun q hq => (h4 q fun k hk => hq k (List.mem_cons_of_mem _ hk)).trans (hun q (hq j (List.mem_cons_self ..))), h5⟩

end M2S
