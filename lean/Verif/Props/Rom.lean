import Verif.Proofs.RomWalk
/-
Addresses, headers and the chunk search of the ROM builder: C36, C37, C38.
-/
namespace M2S
open RomSpec

/-! ## C36: address translation -/

/-- **C36.** The file position of an SNES address is the LoROM one, `bank * 0x8000 + offset mod 0x8000`. -/
theorem C36_address_map (bank offset : Nat) (hb : bank < 0x100) (ho : offset < 0x10000) :
    snesToPc (0x10000 * bank + offset) = bank * 0x8000 + offset % 0x8000 := by
  rw [snesToPc_24 _ (by omega), lorom, show (0x10000 * bank + offset) / 0x10000 = bank by omega]
  omega

/-- **C36.** The same for an address given as three bytes. -/
theorem C36_bytes (bank high low : UInt8) :
    snesBytesToPc bank high low = bank.toNat * 0x8000 + (256 * high.toNat + low.toNat) % 0x8000 :=
  snesBytesToPc_eq bank high low

/-- **C36.** On the ROM half of the banks (offset 8000 and above) different addresses have different positions, and every position
below 8 MiB is reached. -/
theorem C36_one_to_one :
    (∀ a b : Nat, a < 2 ^ 24 → b < 2 ^ 24 → 0x8000 ≤ a % 0x10000 → 0x8000 ≤ b % 0x10000 → snesToPc a = snesToPc b → a = b) ∧
    (∀ p : Nat, p < 0x800000 → ∃ a < 2 ^ 24, 0x8000 ≤ a % 0x10000 ∧ snesToPc a = p) := by
  constructor
  · intro a b ha hb h1 h2 h
    rw [snesToPc_24 _ ha, snesToPc_24 _ hb] at h
    unfold lorom at h
    omega
  · intro p hp
    refine ⟨p / 0x8000 * 0x10000 + 0x8000 + p % 0x8000, by omega, by omega, ?_⟩
    rw [snesToPc_24 _ (by omega)]
    unfold lorom
    omega

example : snesToPc 0x1A9EF5 = 0xD1EF5 ∧ snesBytesToPc 0x1A 0x9E 0xF5 = 0xD1EF5 := by decide

/-! ## C37: pointers and headers -/

theorem word_pointer {rom r : Rom} {p a : Nat} (h : pokes rom (pointerPokes p a) = .ok r) :
    word (ofRom r) p = some (a % 0x10000) := by
  obtain ⟨hin, rfl⟩ := pokes_ok.mp h
  have h0 := hin (p, (addrToBytes a).2) (by simp [pointerPokes])
  have h1 := hin (p + 1, (addrToBytes a).1) (by simp [pointerPokes])
  simp only at h0 h1
  unfold word ofRom
  rw [applyW_get _ _ _ h0, applyW_get _ _ _ h1]
  simp [pointerPokes, lastW, Option.orElse, addrToBytes_eq]
  omega

/-- **C37.** A pointer written and read back is the address modulo 2^16: exactly the 16-bit addresses survive. Nothing else changes. -/
theorem C37_pointer (rom r : Rom) (p a : Nat) (h : pokes rom (pointerPokes p a) = .ok r) :
    (word (ofRom r) p = some a ↔ a < 0x10000) ∧ r.length = rom.length ∧ ∀ i, i ≠ p → i ≠ p + 1 → r[i]? = rom[i]? := by
  refine ⟨?_, ?_, ?_⟩
  · rw [word_pointer h, Option.some_inj]; omega
  · obtain ⟨-, rfl⟩ := pokes_ok.mp h
    exact applyW_length _ _
  · intro i h0 h1
    obtain ⟨-, rfl⟩ := pokes_ok.mp h
    by_cases hi : i < rom.length
    · rw [applyW_get _ _ _ hi, lastW_none.mpr]
      · rfl
      · intro x hx
        simp only [pointerPokes, List.mem_cons, List.not_mem_nil, or_false] at hx
        rcases hx with rfl | rfl <;> simp only <;> omega
    · rw [List.getElem?_eq_none (by rw [applyW_length]; omega), List.getElem?_eq_none (by omega)]

/-- **C37.** The pointer write succeeds wherever there is room. -/
theorem C37_pointer_ok (rom : Rom) (p a : Nat) (h : p + 1 < rom.length) : ∃ r, pokes rom (pointerPokes p a) = .ok r := by
  refine ⟨_, pokes_ok.mpr ⟨?_, rfl⟩⟩
  intro x hx
  simp only [pointerPokes, List.mem_cons, List.not_mem_nil, or_false] at hx
  rcases hx with rfl | rfl <;> simp only <;> omega

example : ∃ r, pokes [1, 2, 3, 4] (pointerPokes 1 0xd036) = .ok r ∧ r = [1, 0x36, 0xd0, 4] := ⟨_, by decide, rfl⟩

/-- **C37.** A chunk header written and read back is the chunk again exactly if its length and its address are 16-bit numbers;
nothing but the four header bytes changes. -/
theorem C37_header (c : Chunk) (rom r : Rom) (p : Nat) (hp : c.offsetAddr = p + 4) (h : c.writeHeader rom p = .ok r) :
    (chunkLoad r p = .ok c ↔ c.length < 0x10000 ∧ c.aramAddr < 0x10000) ∧
    r.length = rom.length ∧ ∀ i, (i < p ∨ p + 4 ≤ i) → r[i]? = rom[i]? := by
  unfold Chunk.writeHeader at h
  obtain ⟨hin, rfl⟩ := pokes_ok.mp h
  simp only [List.mem_cons, List.not_mem_nil, or_false, forall_eq_or_imp, forall_eq] at hin
  refine ⟨?_, applyW_length _ _, ?_⟩
  · rw [chunkLoad_eq]
    unfold header word ofRom
    rw [applyW_get _ _ _ hin.1, applyW_get _ _ _ hin.2.1, applyW_get _ _ _ hin.2.2.1, applyW_get _ (p + 2 + 1) _ hin.2.2.2]
    obtain ⟨off, len, aram⟩ := c
    simp only at hp
    subst hp
    simp [lastW, Option.orElse, toChunk, ChunkInfo.data, Nat.shiftRight_eq_div_pow, Nat.and_two_pow_sub_one_eq_mod _ 8]
    omega
  · intro i h'
    by_cases hi : i < rom.length
    · rw [applyW_get _ _ _ hi, lastW_none.mpr]
      · rfl
      · intro x hx
        simp only [List.mem_cons, List.not_mem_nil, or_false] at hx
        rcases hx with rfl | rfl | rfl | rfl <;> simp only <;> omega
    · rw [List.getElem?_eq_none (by rw [applyW_length]; omega), List.getElem?_eq_none (by omega)]

example : (Chunk.writeHeader ⟨5, 0x2345, 0xd000⟩ [9, 9, 9, 9, 9, 9] 1) = .ok [9, 0x45, 0x23, 0x00, 0xd0, 9] := by decide

/-! ## C38: the chunk search -/

/-- **C38.** For every ROM image and bank address the search ends, with a result, one of its two error messages, or an out-of-range
panic (`diverged` stands for a loop that does not end). -/
theorem C38_terminates (rom : Rom) (base : Nat) :
    (∃ w, findChunks rom base = .ok w) ∨ findChunks rom base = .error (.err .noBaseChunk) ∨
    findChunks rom base = .error (.err .noOverflowChunk) ∨ findChunks rom base = .error .panic := by
  cases h : findChunks rom base with
  | ok w => left; exact ⟨w, rfl⟩
  | error e =>
    right
    have hstart : ∀ e', bankStart rom base = .error e' → e' = .panic := by
      have hpk : ∀ i, PanicOnly (peek rom i) := by
        intro i
        unfold peek
        split
        · exact panicOnly_ok _
        · exact panicOnly_panicked
      unfold bankStart
      exact (panicOnly_addU32 _ _).bind fun _ _ => (hpk _).bind fun _ _ => (panicOnly_addU32 _ _).bind fun _ _ =>
        (hpk _).bind fun _ _ => (hpk _).bind fun _ _ => panicOnly_pure _
    unfold findChunks at h
    cases hb : bankStart rom base with
    | error e' =>
      rw [hb] at h
      have := hstart e' hb
      subst this
      cases h
      right; right; rfl
    | ok r =>
      rw [hb] at h
      simp only [bind, Except.bind] at h
      cases hw : walkLoop rom (rom.length + 1) { addr := r.1 } with
      | error e' =>
        have := walkLoop_total rom.length _ (show rom.length < r.1 + (rom.length + 1) by omega) e' hw
        subst this
        rw [hw] at h
        cases h
        right; right; rfl
      | ok w =>
        rw [hw] at h
        simp only at h
        split_ifs at h
        · cases h; left; rfl
        · cases h; right; left; rfl
        · cases h

/-- **C38.** What a successful search has found, on every ROM: following the bank pointer there are consecutive chunks
`pre ++ b :: o :: post`; `b` is the base chunk, it goes to ARAM D000; `o`, the chunk right after it, is the overflow chunk; no
chunk after `b` goes to D000 (except possibly the end mark right behind `b`); the last chunk of the list has length 0, and
no chunk before has, apart from chunks for D000. -/
theorem C38_found (rom : Rom) (base : Nat) (hb : base + 8 < 2 ^ 24) (w : Walk) (h : findChunks rom base = .ok w) :
    ∃ start pre b o post, bankPointer (ofRom rom) base = some start ∧ Chunks (ofRom rom) start (pre ++ b :: o :: post) ∧
      b.aram = 0xd000 ∧ (∀ c ∈ o :: post, c.aram = 0xd000 → post = []) ∧ (∀ c ∈ (o :: post).getLast?, c.len = 0) ∧
      (∀ c ∈ (pre ++ b :: o :: post).dropLast, c.len = 0 → c.aram = 0xd000) ∧
      w.baseAddr = b.data ∧ w.baseLen = b.len ∧ w.overflowAddr = o.data ∧ w.overflowLen = o.len ∧ w.overflowAram = o.aram := by
  obtain ⟨start, pre, b, o, post, hp, hf, hw⟩ := findChunks_found hb h
  exact ⟨start, pre, b, o, post, hp, hf.chunks, hf.base, hf.others, hf.mark, hf.inner, hw⟩

/-- **C38.** On a bank with the game's chunk list (`cs`, end mark `stop`, which does not go to D000): if some chunk goes to D000, the
search succeeds, with the last such chunk and the one after it (possibly the end mark); if none does, it reports that there is no base chunk. -/
theorem C38_last_base (rom : Rom) (base : Nat) (hb : base + 8 < 2 ^ 24) (start : Nat) (cs : List ChunkInfo) (stop : ChunkInfo)
    (hp : bankPointer (ofRom rom) base = some start) (hl : ChunkList (ofRom rom) start cs stop) (hs : stop.aram ≠ 0xd000) :
    (∀ pre b o post, cs ++ [stop] = pre ++ b :: o :: post → b.aram = 0xd000 → (∀ c ∈ o :: post, c.aram ≠ 0xd000) →
      ∃ w, findChunks rom base = .ok w ∧ w.baseAddr = b.data ∧ w.baseLen = b.len ∧ w.overflowAddr = o.data ∧
        w.overflowLen = o.len ∧ w.overflowAram = o.aram) ∧
    ((∀ c ∈ cs, c.aram ≠ 0xd000) → findChunks rom base = .error (.err .noBaseChunk)) := by
  obtain ⟨hch, hnz, hs0⟩ := hl
  obtain ⟨r, hr, rfl⟩ := bankStart_of_pointer hb hp
  have hloop : ∃ w, walkLoop rom (rom.length + 1) { addr := r.1 } = .ok w := by
    cases hw : walkLoop rom (rom.length + 1) { addr := r.1 } with
    | ok w => exact ⟨w, rfl⟩
    | error e =>
      have := walkLoop_total rom.length _ (show rom.length < r.1 + (rom.length + 1) by omega) e hw
      subst this
      exact absurd hw (walkLoop_no_panic _ _ cs stop hch hnz hs0 hs)
  obtain ⟨w, hw⟩ := hloop
  have hfind : findChunks rom base = (if w.baseAddr = 0 then failed .noBaseChunk
      else if w.overflowAddr = 0 then failed .noOverflowChunk else .ok w) := by
    unfold findChunks
    rw [hr]
    simp only [bind, Except.bind]
    rw [hw]
    rfl
  have hsame : ∀ L : List ChunkInfo, Chunks (ofRom rom) r.1 L → (∀ c ∈ L.getLast?, c.len = 0) → L ≠ [] →
      (∀ c ∈ L.dropLast, c.len = 0 → c.aram = 0xd000) → L = cs ++ [stop] := by
    intro L hL hlast hne hin
    rcases chunks_prefix _ _ _ hL hch with hpre | hpre
    · obtain ⟨t, ht⟩ := hpre
      rcases List.eq_nil_or_concat t with rfl | ⟨t', x, rfl⟩
      · simpa using ht
      · exfalso
        rw [List.concat_eq_append, ← List.append_assoc] at ht
        have hx := List.append_inj' ht rfl
        have hmem : L.getLast hne ∈ cs := by rw [← hx.1]; simp
        exact hnz _ hmem (hlast _ (by rw [List.getLast?_eq_some_getLast hne]; rfl))
    · obtain ⟨t, ht⟩ := hpre
      rcases List.eq_nil_or_concat t with rfl | ⟨t', x, rfl⟩
      · simpa using ht.symm
      · exfalso
        rw [List.concat_eq_append] at ht
        refine hs (hin stop ?_ hs0)
        rw [← ht, ← List.append_assoc, List.dropLast_concat]
        simp
  rcases walkLoop_found _ _ _ (show (0xffff : Nat) ≠ 0 by decide) hw with ⟨cs', stop', hch', hnd, hnz', hs', rfl⟩ | ⟨pre, b, o, post, hf, hwf⟩
  · have hL := hsame _ hch' (by simp [hs']) (by simp) (by
      rw [List.dropLast_concat]; intro c hc h0; exact absurd h0 (hnz' c hc))
    constructor
    · intro pre b o post heq hba _
      exfalso
      exact hnd b (by rw [hL, heq]; simp) hba
    · intro _
      rw [hfind]
      simp [failed]
  · have hL := hsame _ hf.chunks (by
      intro c hc
      refine hf.mark c ?_
      rw [List.getLast?_append] at hc
      simpa [List.getLast?_cons_cons] using hc) (by simp) hf.inner
    constructor
    · intro pre' b' o' post' heq hba hno
      have hL' : pre ++ b :: o :: post = pre' ++ b' :: o' :: post' := by rw [hL, heq]
      have hnone : ∀ c ∈ o :: post, c.aram ≠ 0xd000 := by
        intro c hc hca
        have hpost := hf.others c hc hca
        subst hpost
        simp at hc
        subst hc
        have : c = stop := by
          have h2 : (pre ++ [b]) ++ [c] = cs ++ [stop] := by rw [← hL]; simp
          have := (List.append_inj' h2 rfl).2
          simpa using this
        subst this
        exact hs hca
      have huniq : pre = pre' ∧ b :: o :: post = b' :: o' :: post' := by
        have hfa := hf.base
        clear hL heq hf hwf hfind hw
        rcases List.append_eq_append_iff.mp hL' with ⟨t, h1, h2⟩ | ⟨t, h1, h2⟩
        · cases t with
          | nil => simp at h1 h2; exact ⟨h1.symm, by simpa using h2⟩
          | cons x t =>
            exfalso
            simp only [List.cons_append, List.cons.injEq] at h2
            exact hnone b' (by rw [h2.2]; simp) hba
        · cases t with
          | nil => simp at h1 h2; exact ⟨h1, by simp [h2]⟩
          | cons x t =>
            exfalso
            simp only [List.cons_append, List.cons.injEq] at h2
            exact hno b (by rw [h2.2]; simp) hfa
      obtain ⟨-, h2⟩ := huniq
      simp only [List.cons.injEq] at h2
      obtain ⟨rfl, rfl, rfl⟩ := h2
      refine ⟨w, ?_, hwf⟩
      rw [hfind, if_neg, if_neg]
      · rw [hwf.2.2.1]; simp [ChunkInfo.data]
      · rw [hwf.1]; simp [ChunkInfo.data]
    · intro hnone
      exfalso
      have hbm : b ∈ cs := by
        have : b ∈ (cs ++ [stop]).dropLast := by
          rw [← hL, List.dropLast_append_of_ne_nil (by simp), List.dropLast_cons_of_ne_nil (by simp)]; simp
        rwa [List.dropLast_concat] at this
      exact hnone b hbm hf.base

/-- A small ROM for the examples: bank pointer operands at 0, 4 and 8, and from position 16 the chunks `aa bb` for 0800, a base chunk of
two bytes, an overflow chunk of one byte for 2b00, and the end mark. -/
def tinyRom : Rom :=
  [16, 0, 0, 0, 0x80, 0, 0, 0, 0, 0, 0, 0, 0, 0, 0, 0,
   2, 0, 0x00, 0x08, 0xaa, 0xbb, 2, 0, 0x00, 0xd0, 0xcc, 0xdd, 1, 0, 0x00, 0x2b, 0xee, 0, 0, 0x00, 0x08]

example : bankPointer (ofRom tinyRom) 0 = some 16 ∧
    ChunkList (ofRom tinyRom) 16 [⟨16, 2, 0x0800⟩, ⟨22, 2, 0xd000⟩, ⟨28, 1, 0x2b00⟩] ⟨33, 0, 0x0800⟩ ∧
    findChunks tinyRom 0 = .ok ⟨37, 0, 26, 2, 32, 1, 0x2b00⟩ := by
  refine ⟨by decide, ⟨?_, by decide, rfl⟩, by decide⟩
  exact .cons (by decide) (.cons (by decide) (.cons (by decide) (.cons (by decide) (.nil _))))

end M2S
