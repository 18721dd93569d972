import Verif.Proofs.RomBasic
/-
Helper lemmas on the chunk search.
-/
namespace M2S
open RomSpec

theorem peek_ok {rom : Rom} {i : Nat} {b : UInt8} : peek rom i = .ok b ↔ rom[i]? = some b := by
  unfold peek
  cases rom[i]? <;> simp [panicked]

/-- The model's chunk for a specified chunk. -/
def toChunk (c : ChunkInfo) : Chunk := ⟨c.data, c.len, c.aram⟩

theorem header_pos {m : Mem} {p : Nat} {c : ChunkInfo} (h : header m p = some c) : c.pos = p := by
  unfold header at h
  split at h
  · cases h; rfl
  · cases h

theorem chunkLoad_eq (rom : Rom) (p : Nat) : chunkLoad rom p =
    match header (ofRom rom) p with
    | some c => .ok (toChunk c)
    | none => panicked := by
  unfold chunkLoad header word ofRom peek
  cases h1 : rom[p + 1]? with
  | none => cases rom[p]? <;> rfl
  | some b1 =>
    cases h0 : rom[p]? with
    | none =>
      exfalso
      have := List.getElem?_eq_none_iff.mp h0
      obtain ⟨h, -⟩ := List.getElem?_eq_some_iff.mp h1
      omega
    | some b0 =>
      cases h3 : rom[p + 3]? with
      | none =>
        have e : p + 2 + 1 = p + 3 := rfl
        cases h2 : rom[p + 2]? <;> simp [bind, Except.bind, panicked]
      | some b3 =>
        have e : p + 2 + 1 = p + 3 := rfl
        cases h2 : rom[p + 2]? with
        | none => 
          exfalso
          have := List.getElem?_eq_none_iff.mp h2
          obtain ⟨h, -⟩ := List.getElem?_eq_some_iff.mp h3
          omega
        | some b2 =>
          simp only [bind, Except.bind, pure, Except.pure, toChunk, ChunkInfo.data, Nat.shiftLeft_eq]
          congr 2 <;> omega

theorem chunkLoad_ok {rom : Rom} {p : Nat} {c : Chunk} : chunkLoad rom p = .ok c ↔
    ∃ i, header (ofRom rom) p = some i ∧ c = toChunk i := by
  rw [chunkLoad_eq]
  cases header (ofRom rom) p <;> simp [panicked, eq_comm]

theorem header_lt {rom : Rom} {p : Nat} {c : ChunkInfo} (h : header (ofRom rom) p = some c) : p + 4 ≤ rom.length := by
  unfold header word ofRom at h
  by_contra hlt
  have : rom[p + 2 + 1]? = none := List.getElem?_eq_none (by omega)
  rw [this] at h
  cases rom[p + 2]? <;> simp at h

/-- The walk's variables after a step from a chunk `c`. -/
theorem walkStep_ok {rom : Rom} {w w' : Walk} : walkStep rom w = .ok w' ↔
    ∃ c, header (ofRom rom) w.addr = some c ∧
      ((c.aram ≠ 0xd000 ∧ w' = { w with addr := c.next, lastLength := c.len }) ∨
       (c.aram = 0xd000 ∧ ∃ o, header (ofRom rom) c.next = some o ∧
         w' = ⟨c.next, o.len, c.data, c.len, o.data, o.len, o.aram⟩)) := by
  unfold walkStep
  rw [res_bind]
  constructor
  · rintro ⟨c, hc, h⟩
    obtain ⟨i, hi, rfl⟩ := chunkLoad_ok.mp hc
    refine ⟨i, hi, ?_⟩
    split_ifs at h with ha
    · rw [res_bind] at h
      obtain ⟨o, ho, h⟩ := h
      obtain ⟨j, hj, rfl⟩ := chunkLoad_ok.mp ho
      right
      refine ⟨ha, j, hj, ?_⟩
      rw [← res_pure.mp h]; rfl
    · left
      refine ⟨ha, ?_⟩
      rw [← res_pure.mp h]; rfl
  · rintro ⟨c, hc, h⟩
    refine ⟨toChunk c, chunkLoad_ok.mpr ⟨c, hc, rfl⟩, ?_⟩
    rcases h with ⟨ha, rfl⟩ | ⟨ha, o, ho, rfl⟩
    · rw [if_neg (show ¬ (toChunk c).aramAddr = aramBase from ha)]; rfl
    · rw [if_pos (show (toChunk c).aramAddr = aramBase from ha), res_bind]
      exact ⟨toChunk o, chunkLoad_ok.mpr ⟨o, ho, rfl⟩, rfl⟩

theorem walkStep_fault {rom : Rom} {w : Walk} {e : Fault} (h : walkStep rom w = .error e) : e = .panic := by
  unfold walkStep at h
  rw [chunkLoad_eq] at h
  cases h1 : header (ofRom rom) w.addr with
  | none => rw [h1] at h; simp only [panicked, bind, Except.bind] at h; cases h; rfl
  | some c =>
    rw [h1] at h
    simp only [bind, Except.bind] at h
    split_ifs at h
    swap
    · cases h
    rw [chunkLoad_eq] at h
    cases h2 : header (ofRom rom) ((toChunk c).offsetAddr + (toChunk c).length) with
    | none => rw [h2] at h; simp only [panicked] at h; cases h; rfl
    | some o => rw [h2] at h; simp only at h; cases h

theorem walkStep_addr {rom : Rom} {w w' : Walk} (h : walkStep rom w = .ok w') : w.addr + 4 ≤ w'.addr ∧ w.addr + 4 ≤ rom.length := by
  obtain ⟨c, hc, h⟩ := walkStep_ok.mp h
  have hp := header_pos hc
  have hl := header_lt hc
  rcases h with ⟨-, rfl⟩ | ⟨-, o, -, rfl⟩ <;> simp only [ChunkInfo.next] <;> omega

/-- The walk never runs out of fuel; it ends with a result or a panic. -/
theorem walkLoop_total {rom : Rom} : ∀ (fuel : Nat) (w : Walk), rom.length < w.addr + (fuel + 1) →
    ∀ e, walkLoop rom (fuel + 1) w = .error e → e = .panic := by
  intro fuel
  induction fuel with
  | zero =>
    intro w h e he
    rw [walkLoop] at he
    split_ifs at he with h0
    cases hs : walkStep rom w with
    | error e' =>
      have := walkStep_fault hs
      subst this
      rw [hs] at he; cases he; rfl
    | ok w' =>
      have := walkStep_addr hs
      omega
  | succ fuel ih =>
    intro w h e he
    rw [walkLoop] at he
    split_ifs at he with h0
    cases hs : walkStep rom w with
    | error e' =>
      have := walkStep_fault hs
      subst this
      rw [hs] at he; cases he; rfl
    | ok w' =>
      have := walkStep_addr hs
      rw [hs] at he
      exact ih w' (by omega) e he

/-- What a successful walk has seen. -/
structure Found (m : Mem) (start : Nat) (pre : List ChunkInfo) (b o : ChunkInfo) (post : List ChunkInfo) : Prop where
  chunks : Chunks m start (pre ++ b :: o :: post)
  base : b.aram = 0xd000
  others : ∀ c ∈ o :: post, c.aram = 0xd000 → post = []
  mark : ∀ c ∈ (o :: post).getLast?, c.len = 0
  inner : ∀ c ∈ (pre ++ b :: o :: post).dropLast, c.len = 0 → c.aram = 0xd000

theorem chunks_tail {m : Mem} {p : Nat} {c : ChunkInfo} {cs : List ChunkInfo} (h : Chunks m p (c :: cs)) :
    header m p = some c ∧ Chunks m c.next cs := by
  cases h with | cons h t => exact ⟨h, t⟩

theorem walkLoop_found {rom : Rom} : ∀ (fuel : Nat) (w w' : Walk), w.lastLength ≠ 0 → walkLoop rom fuel w = .ok w' →
    (∃ cs stop, Chunks (ofRom rom) w.addr (cs ++ [stop]) ∧ (∀ c ∈ cs ++ [stop], c.aram ≠ 0xd000) ∧ (∀ c ∈ cs, c.len ≠ 0) ∧
      stop.len = 0 ∧ w' = { w with addr := stop.next, lastLength := 0 }) ∨
    (∃ pre b o post, Found (ofRom rom) w.addr pre b o post ∧ w'.baseAddr = b.data ∧ w'.baseLen = b.len ∧
      w'.overflowAddr = o.data ∧ w'.overflowLen = o.len ∧ w'.overflowAram = o.aram) := by
  intro fuel
  induction fuel with
  | zero =>
    intro w w' h0 h
    rw [walkLoop, if_neg h0] at h
    cases h
  | succ fuel ih =>
    intro w w' h0 h
    rw [walkLoop, if_neg h0, res_bind] at h
    obtain ⟨w1, h1, h⟩ := h
    obtain ⟨c, hc, hw⟩ := walkStep_ok.mp h1
    rcases hw with ⟨ha, rfl⟩ | ⟨ha, o, ho, rfl⟩
    · by_cases hz : c.len = 0
      · left
        refine ⟨[], c, .cons hc (.nil _), by simpa using ha, by simp, hz, ?_⟩
        cases fuel with
        | zero => rw [walkLoop, if_pos hz] at h; cases h; simp [hz]
        | succ f => rw [walkLoop, if_pos hz] at h; cases h; simp [hz]
      · rcases ih _ _ hz h with ⟨cs, stop, hch, hnd, hnz, hs, rfl⟩ | ⟨pre, b, o, post, hf, hw⟩
        · left
          refine ⟨c :: cs, stop, .cons hc hch, ?_, ?_, hs, rfl⟩
          · intro x hx
            rcases List.mem_cons.mp hx with rfl | hx
            · exact ha
            · exact hnd x hx
          · intro x hx
            rcases List.mem_cons.mp hx with rfl | hx
            · exact hz
            · exact hnz x hx
        · right
          refine ⟨c :: pre, b, o, post, ⟨.cons hc hf.chunks, hf.base, hf.others, hf.mark, ?_⟩, hw⟩
          intro x hx hx0
          rw [List.cons_append, List.dropLast_cons_of_ne_nil (by simp)] at hx
          rcases List.mem_cons.mp hx with rfl | hx
          · exact absurd hx0 hz
          · exact hf.inner x hx hx0
    · by_cases hz : o.len = 0
      · right
        refine ⟨[], c, o, [], ⟨.cons hc (.cons ho (.nil _)), ha, by simp, by simpa using hz, ?_⟩, ?_⟩
        · intro x hx _
          simp at hx
          subst hx; exact ha
        · cases fuel with
          | zero => rw [walkLoop, if_pos hz] at h; cases h; simp
          | succ f => rw [walkLoop, if_pos hz] at h; cases h; simp
      · rcases ih _ _ hz h with ⟨cs, stop, hch, hnd, hnz, hs, rfl⟩ | ⟨pre, b, o', post, hf, hw⟩
        · right
          simp only at hch
          cases cs with
          | nil =>
            obtain ⟨hh, -⟩ := (chunks_tail hch)
            rw [ho] at hh
            cases hh
            exact absurd hs hz
          | cons x cs =>
            obtain ⟨hh, -⟩ := (chunks_tail hch)
            rw [ho] at hh
            cases hh
            refine ⟨[], c, o, cs ++ [stop], ⟨.cons hc hch, ha, ?_, ?_, ?_⟩, rfl, rfl, rfl, rfl, rfl⟩
            · intro x hx hx0
              exact absurd hx0 (hnd x hx)
            · intro x hx
              rw [← List.cons_append, List.getLast?_append] at hx
              simp at hx
              subst hx; exact hs
            · intro x hx hx0
              have : ([] ++ c :: o :: (cs ++ [stop])).dropLast = c :: o :: cs := by
                rw [List.nil_append, ← List.cons_append, ← List.cons_append, List.dropLast_concat]
              rw [this] at hx
              rcases List.mem_cons.mp hx with rfl | hx
              · exact ha
              · exact absurd hx0 (hnz x hx)
        · right
          refine ⟨c :: pre, b, o', post, ⟨.cons hc hf.chunks, hf.base, hf.others, hf.mark, ?_⟩, hw⟩
          intro x hx hx0
          rw [List.cons_append, List.dropLast_cons_of_ne_nil (by simp)] at hx
          rcases List.mem_cons.mp hx with rfl | hx
          · exact ha
          · exact hf.inner x hx hx0

/-- On a well-formed list the walk does not panic. -/
theorem walkLoop_no_panic {rom : Rom} : ∀ (fuel : Nat) (w : Walk) (cs : List ChunkInfo) (stop : ChunkInfo),
    Chunks (ofRom rom) w.addr (cs ++ [stop]) → (∀ c ∈ cs, c.len ≠ 0) → stop.len = 0 → stop.aram ≠ 0xd000 →
    walkLoop rom fuel w ≠ .error .panic := by
  intro fuel
  induction fuel with
  | zero =>
    intro w cs stop _ _ _ _
    rw [walkLoop]
    split_ifs <;> simp
  | succ fuel ih =>
    intro w cs stop hch hnz hs hsa
    rw [walkLoop]
    split_ifs with h0
    · simp
    cases cs with
    | nil =>
      obtain ⟨hh, -⟩ := (chunks_tail hch)
      rw [walkStep_ok.mpr ⟨stop, hh, .inl ⟨hsa, rfl⟩⟩]
      simp only [bind, Except.bind]
      cases fuel <;> rw [walkLoop, if_pos hs] <;> simp
    | cons c cs =>
      obtain ⟨hh, ht⟩ := chunks_tail hch
      by_cases ha : c.aram = 0xd000
      · obtain ⟨o, ho⟩ : ∃ o, header (ofRom rom) c.next = some o := by
          cases cs with
          | nil => exact ⟨_, (chunks_tail ht).1⟩
          | cons o cs => exact ⟨_, (chunks_tail ht).1⟩
        rw [walkStep_ok.mpr ⟨c, hh, .inr ⟨ha, o, ho, rfl⟩⟩]
        simp only [bind, Except.bind]
        exact ih _ cs stop ht (fun x hx => hnz x (by simp [hx])) hs hsa
      · rw [walkStep_ok.mpr ⟨c, hh, .inl ⟨ha, rfl⟩⟩]
        simp only [bind, Except.bind]
        exact ih _ cs stop ht (fun x hx => hnz x (by simp [hx])) hs hsa

/-- The chunks from a position are determined. -/
theorem chunks_prefix {m : Mem} : ∀ (a b : List ChunkInfo) (p : Nat), Chunks m p a → Chunks m p b → a <+: b ∨ b <+: a := by
  intro a
  induction a with
  | nil => intro b p _ _; left; exact List.nil_prefix
  | cons x a ih =>
    intro b p ha hb
    cases b with
    | nil => right; exact List.nil_prefix
    | cons y b =>
      obtain ⟨h1, t1⟩ := (chunks_tail ha)
      obtain ⟨h2, t2⟩ := (chunks_tail hb)
      rw [h1] at h2
      cases h2
      rcases ih b _ t1 t2 with h | h
      · left; exact (List.prefix_cons_inj x).mpr h
      · right; exact (List.prefix_cons_inj x).mpr h

theorem bankStart_ok {rom : Rom} {base : Nat} (hb : base + 8 < 2 ^ 24) {r : Nat × UInt8 × UInt8 × UInt8}
    (h : bankStart rom base = .ok r) : bankPointer (ofRom rom) base = some r.1 := by
  unfold bankStart at h
  simp only [res_bind, addU32_ok, peek_ok] at h
  obtain ⟨a8, ⟨-, rfl⟩, bank, h8, a4, ⟨-, rfl⟩, high, h4, low, h0, h⟩ := h
  rw [snesToPc_24 _ (by omega)] at h8 h4 h0
  unfold bankPointer
  simp only [ofRom]
  rw [h0, h4, h8]
  rw [← res_pure.mp h, snesBytesToPc_eq]

theorem bankStart_of_pointer {rom : Rom} {base start : Nat} (hb : base + 8 < 2 ^ 24)
    (h : bankPointer (ofRom rom) base = some start) : ∃ r, bankStart rom base = .ok r ∧ r.1 = start := by
  unfold bankPointer at h
  simp only [ofRom] at h
  split at h
  · rename_i low high bank h0 h4 h8
    refine ⟨(start, bank, high, low), ?_, rfl⟩
    unfold bankStart
    simp only [res_bind, addU32_ok, peek_ok, snesBytesToPc_eq, res_pure]
    refine ⟨_, ⟨by omega, rfl⟩, bank, ?_, _, ⟨by omega, rfl⟩, high, ?_, low, ?_, ?_⟩
    · rw [snesToPc_24 _ (by omega)]; exact h8
    · rw [snesToPc_24 _ (by omega)]; exact h4
    · rw [snesToPc_24 _ (by omega)]; exact h0
    · cases h; rfl
  · cases h

/-- A successful search, as a statement about the ROM. -/
theorem findChunks_found {rom : Rom} {base : Nat} (hb : base + 8 < 2 ^ 24) {w : Walk} (h : findChunks rom base = .ok w) :
    ∃ start pre b o post, bankPointer (ofRom rom) base = some start ∧ Found (ofRom rom) start pre b o post ∧
      w.baseAddr = b.data ∧ w.baseLen = b.len ∧ w.overflowAddr = o.data ∧ w.overflowLen = o.len ∧ w.overflowAram = o.aram := by
  unfold findChunks at h
  rw [res_bind] at h
  obtain ⟨r, hr, h⟩ := h
  simp only [res_bind] at h
  obtain ⟨w1, hw, h⟩ := h
  refine ⟨r.1, ?_⟩
  rcases walkLoop_found _ _ _ (show (0xffff : Nat) ≠ 0 by decide) hw with ⟨cs, stop, -, -, -, -, rfl⟩ | ⟨pre, b, o, post, hf, hfields⟩
  · simp [failed] at h
  · split_ifs at h
    · cases h
    · cases h
    rw [← res_pure.mp h]
    exact ⟨pre, b, o, post, bankStart_ok hb hr, hf, hfields⟩

theorem header_congr {m m' : Mem} {p : Nat} (h : ∀ i, p ≤ i → i < p + 4 → m' i = m i) : header m' p = header m p := by
  unfold header word
  rw [h p (by omega) (by omega), h (p + 1) (by omega) (by omega), h (p + 2) (by omega) (by omega), h (p + 2 + 1) (by omega) (by omega)]

end M2S
