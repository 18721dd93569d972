import Verif.Proofs.RomFake
import Verif.Proofs.RomJobs
/-
Helper lemmas for Props/RomSame.lean: the builder looks at the ROM only through the chunk search and the length.
-/
namespace M2S
open RomSpec

/-- Outcomes of two runs: both fail in the same way, or both succeed with related results. -/
def Sim {α β : Type} (R : α → β → Prop) : Res α → Res β → Prop
  | .ok a, .ok b => R a b
  | .error e, .error f => e = f
  | _, _ => False

theorem sim_bind {α β γ δ : Type} {R : α → β → Prop} {S : γ → δ → Prop} {x : Res α} {y : Res β} {f : α → Res γ} {g : β → Res δ} (h : Sim R x y)
    (hf : ∀ a b, R a b → Sim S (f a) (g b)) : Sim S (x >>= f) (y >>= g) := by
  cases x with
  | error e => cases y with
    | error f => exact h
    | ok b => exact h.elim
  | ok a => cases y with
    | error f => exact h.elim
    | ok b => exact hf a b h

theorem sim_refl {α γ δ : Type} {S : γ → δ → Prop} (x : Res α) {f : α → Res γ} {g : α → Res δ} (hf : ∀ a, Sim S (f a) (g a)) :
    Sim S (x >>= f) (x >>= g) := by
  cases x with
  | error e => exact rfl
  | ok a => exact hf a

theorem sim_imp {α β : Type} {R S : α → β → Prop} {x : Res α} {y : Res β} (h : Sim R x y) (hi : ∀ a b, R a b → S a b) : Sim S x y := by
  cases x <;> cases y <;> first | exact h | exact hi _ _ h

theorem sim_foldlM {α β γ : Type} {R : α → β → Prop} {f : α → γ → Res α} {g : β → γ → Res β} (hf : ∀ a b c, R a b → Sim R (f a c) (g b c)) :
    ∀ (l : List γ) (a : α) (b : β), R a b → Sim R (l.foldlM f a) (l.foldlM g b)
  | [], _, _, h => h
  | c :: l, a, b, h => by
    rw [List.foldlM_cons, List.foldlM_cons]
    exact sim_bind (hf a b c h) fun a b h => sim_foldlM hf l a b h

/-- Two images made from `rom` and `rom'` by the same changes. -/
def Patched (rom rom' r r' : Rom) : Prop :=
  r.length = rom.length ∧ r'.length = rom.length ∧ ∀ q : Nat, r[q]? = r'[q]? ∨ (r[q]? = rom[q]? ∧ r'[q]? = rom'[q]?)

theorem sim_poke {rom rom' r r' : Rom} (h : Patched rom rom' r r') (i : Nat) (b : UInt8) :
    Sim (Patched rom rom') (poke r i b) (poke r' i b) := by
  unfold poke
  rw [h.1, h.2.1]
  split_ifs with hi
  · refine ⟨by rw [List.length_set, h.1], by rw [List.length_set, h.2.1], fun q => ?_⟩
    by_cases hq : i = q
    · left
      rw [List.getElem?_set, List.getElem?_set, if_pos hq, if_pos hq, h.1, h.2.1]
    · rw [List.getElem?_set_ne hq, List.getElem?_set_ne hq]
      exact h.2.2 q
  · exact rfl

theorem sim_pokes {rom rom' : Rom} : ∀ (ws : List (Nat × UInt8)) {r r' : Rom}, Patched rom rom' r r' → Sim (Patched rom rom') (pokes r ws) (pokes r' ws)
  | [], _, _, h => h
  | (i, b) :: ws, r, r', h => by
    rw [pokes, pokes]
    exact sim_bind (sim_poke h i b) fun _ _ h => sim_pokes ws h

theorem splice_get {r : Rom} {s : Nat} {d : List UInt8} (h : s + d.length ≤ r.length) (q : Nat) :
    (r.take s ++ d ++ r.drop (s + d.length))[q]? = if s ≤ q ∧ q < s + d.length then d[q - s]? else r[q]? := by
  have ht : (r.take s).length = s := by rw [List.length_take]; omega
  by_cases h1 : q < s
  · rw [if_neg (by omega), List.append_assoc, List.getElem?_append_left (by omega), List.getElem?_take_of_lt h1]
  · by_cases h2 : q < s + d.length
    · rw [if_pos (by omega), List.append_assoc, List.getElem?_append_right (by omega), List.getElem?_append_left (by omega), ht]
    · rw [if_neg (by omega), List.getElem?_append_right (by rw [List.length_append]; omega), List.getElem?_drop, List.length_append, ht]
      congr 1; omega

theorem sim_splice {rom rom' r r' : Rom} (h : Patched rom rom' r r') (s : Nat) (d : List UInt8) :
    Sim (Patched rom rom') (spliceRom r s d) (spliceRom r' s d) := by
  unfold spliceRom
  rw [h.1, h.2.1]
  split_ifs with hi
  · have h1 : s + d.length ≤ r.length := by rw [h.1]; exact hi
    have h2 : s + d.length ≤ r'.length := by rw [h.2.1]; exact hi
    refine ⟨by simp [h.1]; omega, by simp [h.2.1]; omega, fun q => ?_⟩
    rw [splice_get h1, splice_get h2]
    split_ifs
    · left; rfl
    · exact h.2.2 q
  · exact rfl

/-- States of the track loop that differ in the image only. -/
def SimTL (rom rom' : Rom) (a b : TrackLoop) : Prop := Patched rom rom' a.rom b.rom ∧ b = { a with rom := b.rom }

/-- States of the song loop that differ in the image only. -/
def SimBS (rom rom' : Rom) (a b : BankState) : Prop := Patched rom rom' a.rom b.rom ∧ b = { a with rom := b.rom }

theorem sim_track {rom rom' : Rom} (w : Walk) (v : Bool) (so : Nat) (song : Song) (a b : TrackLoop) (i : Nat) (h : SimTL rom rom' a b) :
    Sim (SimTL rom rom') (writeSongTrack w v so song a i) (writeSongTrack w v so song b i) := by
  obtain ⟨hp, hb⟩ := h
  obtain ⟨ra, x1, x2, x3, x4, x5, x6⟩ := a
  obtain ⟨rb, y1, y2, y3, y4, y5, y6⟩ := b
  simp only [TrackLoop.mk.injEq, true_and] at hb
  obtain ⟨rfl, rfl, rfl, rfl, rfl, rfl⟩ := hb
  unfold writeSongTrack
  refine sim_refl _ fun o => sim_refl _ fun s => ?_
  obtain ⟨sw, off, ra', len, aram⟩ := s
  dsimp only
  split_ifs
  · exact sim_bind (sim_splice hp _ _) fun _ _ h => ⟨h, rfl⟩
  · exact sim_bind (sim_splice hp _ _) fun _ _ h => ⟨h, rfl⟩
  · exact ⟨hp, rfl⟩

theorem sim_pokeTrack {rom rom' r r' : Rom} (h : Patched rom rom' r r') (ta : List Nat) (t p : Nat) :
    Sim (Patched rom rom') (pokeTrackAddr r ta t p) (pokeTrackAddr r' ta t p) := by
  unfold pokeTrackAddr
  cases ta[t]? with
  | none => exact rfl
  | some a => exact sim_pokes _ h

theorem sim_part {rom rom' : Rom} (ta : List Nat) : ∀ (l : List Nat) (p : Nat) {r r' : Rom}, Patched rom rom' r r' →
    Sim (Patched rom rom') (writePartTracks ta l p r) (writePartTracks ta l p r')
  | [], _, _, _, h => h
  | t :: l, p, r, r', h => by
    rw [writePartTracks, writePartTracks]
    exact sim_bind (sim_pokeTrack h ta t p) fun _ _ h => sim_part ta l (p + 2) h

theorem sim_song {rom rom' : Rom} (w : Walk) (v : Bool) (a b : BankState) (song : Song) (loops : Bool) (h : SimBS rom rom' a b) :
    Sim (SimBS rom rom') (writeSong w v a song loops) (writeSong w v b song loops) := by
  obtain ⟨hp, hb⟩ := h
  obtain ⟨ra, x1, x2, x3, x4, x5⟩ := a
  obtain ⟨rb, y1, y2, y3, y4, y5⟩ := b
  simp only [BankState.mk.injEq, true_and] at hb
  obtain ⟨rfl, rfl, rfl, rfl, rfl⟩ := hb
  unfold writeSong
  refine sim_refl _ fun s => ?_
  obtain ⟨sw, off, ra', len, aram⟩ := s
  dsimp only
  refine sim_bind (sim_pokes _ hp) fun r1 r1' h1 => sim_bind (sim_pokes _ h1) fun r2 r2' h2 => ?_
  refine sim_bind (sim_foldlM (fun a b i h => sim_track w v off song a b i h) _ _ _ ⟨h2, rfl⟩) fun a b h => ?_
  obtain ⟨h3, hb⟩ := h
  obtain ⟨ra, x1, x2, x3, x4, x5, x6⟩ := a
  obtain ⟨rb, y1, y2, y3, y4, y5, y6⟩ := b
  simp only [TrackLoop.mk.injEq, true_and] at hb
  obtain ⟨rfl, rfl, rfl, rfl, rfl, rfl⟩ := hb
  dsimp only
  refine sim_bind (sim_pokes _ h3) fun r4 r4' h4 => sim_refl _ fun part => ?_
  refine sim_bind (sim_part _ _ _ h4) fun r5 r5' h5 => ?_
  refine sim_bind (R := Patched rom rom') ?_ fun r6 r6' h6 => ⟨h6, rfl⟩
  unfold writeCallLoops
  exact sim_foldlM (fun a b c h => sim_pokeTrack h y5 c.targetTrack (c.chunkBase + c.refPos)) _ _ _ h5

/-- The chunks found decide what is written. -/
theorem sim_writeBank {Path : Type} {conv : Converter Path} {v : Bool} {songs : List (SongDef Path)} {rom rom' : Rom} {base first fs : Nat}
    (hl : rom'.length = rom.length) (hf : findChunks rom' base = findChunks rom base) :
    Sim (Patched rom rom') (writeBank conv v songs rom base first fs) (writeBank conv v songs rom' base first fs) := by
  unfold writeBank
  rw [hf]
  refine sim_refl _ fun w => sim_refl _ fun so => ?_
  refine sim_bind (sim_foldlM (R := SimBS rom rom') (fun a b d h => sim_refl (loadSong conv d) fun s => sim_song w v a b s d.loops h) songs _ _
    ⟨⟨rfl, hl, fun q => .inr ⟨rfl, rfl⟩⟩, rfl⟩) fun a b h => ?_
  obtain ⟨h3, hb⟩ := h
  obtain ⟨ra, x1, x2, x3, x4, x5⟩ := a
  obtain ⟨rb, y1, y2, y3, y4, y5⟩ := b
  simp only [BankState.mk.injEq, true_and] at hb
  obtain ⟨rfl, rfl, rfl, rfl, rfl⟩ := hb
  exact sim_pokes _ h3

/-! The chunk search reads the pointer bytes and the chunk headers only. -/

theorem walkStep_congr {rom rom' : Rom} {w : Walk} (h1 : header (ofRom rom') w.addr = header (ofRom rom) w.addr)
    (h2 : ∀ c, header (ofRom rom) w.addr = some c → c.aram = 0xd000 → header (ofRom rom') c.next = header (ofRom rom) c.next) :
    walkStep rom' w = walkStep rom w := by
  unfold walkStep
  rw [chunkLoad_eq, chunkLoad_eq, h1]
  cases h : header (ofRom rom) w.addr with
  | none => rfl
  | some c =>
    dsimp only [bind, Except.bind]
    by_cases ha : c.aram = 0xd000
    · rw [chunkLoad_eq, chunkLoad_eq]
      have := h2 c h ha
      simp only [toChunk, ChunkInfo.data, ChunkInfo.next] at this ⊢
      rw [this]
    · rw [if_neg (show ¬ (toChunk c).aramAddr = aramBase from ha), if_neg (show ¬ (toChunk c).aramAddr = aramBase from ha)]

theorem walkLoop_congr {rom rom' : Rom} : ∀ (fuel : Nat) (w : Walk) (cs : List ChunkInfo) (stop : ChunkInfo),
    Chunks (ofRom rom) w.addr (cs ++ [stop]) → stop.len = 0 → stop.aram ≠ 0xd000 →
    (∀ c ∈ cs ++ [stop], header (ofRom rom') c.pos = header (ofRom rom) c.pos) → walkLoop rom' fuel w = walkLoop rom fuel w := by
  intro fuel
  induction fuel with
  | zero => intro w cs stop _ _ _ _; rfl
  | succ fuel ih =>
    intro w cs stop hch hs hsa hq
    rw [walkLoop, walkLoop]
    split_ifs with h0
    · rfl
    cases cs with
    | nil =>
      obtain ⟨hh, -⟩ := chunks_tail hch
      have e : walkStep rom' w = walkStep rom w := by
        refine walkStep_congr ?_ fun c hc ha => ?_
        · have := hq stop (by simp)
          rwa [header_pos hh] at this
        · rw [hh] at hc; cases hc; exact absurd ha hsa
      rw [e, walkStep_ok.mpr ⟨stop, hh, .inl ⟨hsa, rfl⟩⟩]
      simp only [bind, Except.bind]
      cases fuel <;> simp only [walkLoop, hs, if_true]
    | cons c cs =>
      obtain ⟨hh, ht⟩ := chunks_tail hch
      have e : walkStep rom' w = walkStep rom w := by
        refine walkStep_congr ?_ fun d hd ha => ?_
        · have := hq c (by simp)
          rwa [header_pos hh] at this
        · rw [hh] at hd
          cases hd
          cases cs with
          | nil =>
            have := hq stop (by simp)
            rwa [header_pos (chunks_tail ht).1] at this
          | cons o cs =>
            have := hq o (by simp)
            rwa [header_pos (chunks_tail ht).1] at this
      rw [e]
      cases hw : walkStep rom w with
      | error e => rfl
      | ok w' =>
        simp only [bind, Except.bind]
        obtain ⟨d, hd, h⟩ := walkStep_ok.mp hw
        rw [hh] at hd
        cases hd
        have ha : w'.addr = c.next := by rcases h with ⟨-, rfl⟩ | ⟨-, o, -, rfl⟩ <;> rfl
        exact ih w' cs stop (by rw [ha]; exact ht) hs hsa fun x hx => hq x (by simp only [List.cons_append, List.mem_cons]; exact .inr hx)

/-- Images with the same pointer bytes and headers have the same chunks. -/
theorem findChunks_congr {rom rom' : Rom} {base : Nat} (hb : base + 8 < 2 ^ 24) (hl : rom'.length = rom.length) {l : Listed} (h : l.In (ofRom rom) base)
    (hs : l.stop.aram ≠ 0xd000) (heq : ∀ q, Skeleton base (l.chunks ++ [l.stop]) q → rom'[q]? = rom[q]?) :
    findChunks rom' base = findChunks rom base := by
  obtain ⟨hp, hch, hnz, hst⟩ := h
  have e : bankStart rom' base = bankStart rom base := by
    unfold bankStart peek
    rw [addU32_ok.mpr ⟨by omega, rfl⟩, addU32_ok.mpr ⟨by omega, rfl⟩]
    simp only [bind, Except.bind]
    rw [snesToPc_24 _ (show base + 8 < 2 ^ 24 by omega), snesToPc_24 _ (show base + 4 < 2 ^ 24 by omega), snesToPc_24 _ (show base < 2 ^ 24 by omega)]
    rw [heq _ (.inl rfl), heq _ (.inr (.inl rfl)), heq _ (.inr (.inr (.inl rfl)))]
  unfold findChunks
  rw [e]
  obtain ⟨⟨a, x⟩, hr, rfl⟩ := bankStart_of_pointer hb hp
  rw [hr]
  simp only [bind, Except.bind]
  rw [hl, walkLoop_congr (rom := rom) (rom' := rom') _ _ l.chunks l.stop hch hst hs fun c hc => header_congr fun i h1 h2 =>
    heq i (.inr (.inr (.inr ⟨c, hc, h1, h2⟩)))]

theorem chunkList_unique {m : Mem} {p : Nat} {cs cs' : List ChunkInfo} {s s' : ChunkInfo} (h : ChunkList m p cs s) (h' : ChunkList m p cs' s') :
    cs = cs' ∧ s = s' := by
  obtain ⟨h1, n1, z1⟩ := h
  obtain ⟨h2, n2, z2⟩ := h'
  induction cs generalizing p cs' with
  | nil =>
    cases cs' with
    | nil =>
      have a := (chunks_tail h1).1
      rw [(chunks_tail h2).1] at a
      exact ⟨rfl, (Option.some.inj a).symm⟩
    | cons c cs' =>
      have a := (chunks_tail h1).1
      rw [(chunks_tail h2).1] at a
      cases a
      exact absurd z1 (n2 _ (List.mem_cons_self ..))
  | cons d cs ih =>
    cases cs' with
    | nil =>
      have a := (chunks_tail h1).1
      rw [(chunks_tail h2).1] at a
      cases a
      exact absurd z2 (n1 _ (List.mem_cons_self ..))
    | cons c cs' =>
      have a := (chunks_tail h1).1
      rw [(chunks_tail h2).1] at a
      cases a
      obtain ⟨rfl, rfl⟩ := ih (chunks_tail h1).2 (fun c hc => n1 c (List.mem_cons_of_mem _ hc)) (chunks_tail h2).2 fun c hc => n2 c (List.mem_cons_of_mem _ hc)
      exact ⟨rfl, rfl⟩

theorem listed_unique {m : Mem} {base : Nat} {l l' : Listed} (h : l.In m base) (h' : l'.In m base) : l = l' := by
  obtain ⟨hp, hc⟩ := h
  obtain ⟨hp', hc'⟩ := h'
  obtain ⟨a, b, c⟩ := l
  obtain ⟨a', b', c'⟩ := l'
  dsimp only at hp hp' hc hc'
  rw [hp] at hp'
  cases hp'
  obtain ⟨rfl, rfl⟩ := chunkList_unique hc hc'
  rfl

/-- A bank as a chunk list. -/
theorem bank_listed {b : Bank} {m : Mem} {base : Nat} (h : b.In m base) :
    ∃ l : Listed, l.In m base ∧ l.chunks ++ [l.stop] = b.chunks ∧ l.stop.aram ≠ 0xd000 := by
  have hne : b.chunks ≠ [] := by simp [Bank.chunks]
  refine ⟨⟨b.start, b.chunks.dropLast, b.chunks.getLast hne⟩, ⟨h.pointer, ?_, h.inner, ?_⟩, ?_, ?_⟩
  · rw [List.dropLast_append_getLast]; exact h.chunks
  · exact h.last _ (by rw [List.getLast?_eq_some_getLast hne]; rfl)
  · exact List.dropLast_append_getLast hne
  · refine h.later _ ?_
    have : b.chunks = (b.pre ++ [b.songs]) ++ (b.over :: b.post) := by simp [Bank.chunks]
    dsimp only
    simp only [this]
    rw [List.getLast_append_of_ne_nil _ (by simp)]
    exact List.getLast_mem _

end M2S
