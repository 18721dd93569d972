import Verif.Proofs.RomDemo
/-
Building with and without `verbose`.
-/
namespace M2S

/-- Equal, or the first one panicked. -/
def OrPanic {α : Type} (a b : Res α) : Prop := a = b ∨ a = .error .panic

theorem OrPanic.rfl' {α : Type} (a : Res α) : OrPanic a a := .inl rfl

theorem OrPanic.bind {α β : Type} {a b : Res α} {f g : α → Res β} (h : OrPanic a b) (hf : ∀ x, b = .ok x → OrPanic (f x) (g x)) :
    OrPanic (a >>= f) (b >>= g) := by
  rcases h with rfl | rfl
  · cases a with
    | ok x => exact hf x rfl
    | error e => exact .inl rfl
  · exact .inr rfl

theorem OrPanic.foldlM {α β : Type} {f g : β → α → Res β} (h : ∀ b a, OrPanic (f b a) (g b a)) :
    ∀ (l : List α) (b : β), OrPanic (l.foldlM f b) (l.foldlM g b) := by
  intro l
  induction l with
  | nil => intro b; exact .rfl' _
  | cons a l ih => intro b; rw [List.foldlM_cons, List.foldlM_cons]; exact (h b a).bind fun x _ => ih x

theorem switchChunk_orPanic (w : Walk) (s o n r c a : Nat) : OrPanic (switchChunk w true s o n r c a) (switchChunk w false s o n r c a) := by
  unfold switchChunk
  by_cases h1 : o + n > c
  · rw [if_pos h1, if_pos h1]
    by_cases h2 : a = w.overflowAram
    · rw [if_pos h2, if_pos h2]; exact .rfl' _
    · rw [if_neg h2, if_neg h2]
      by_cases h3 : s > c
      · rw [if_pos ⟨rfl, h3⟩]; exact .inr rfl
      · rw [if_neg (by simp [h3]), if_neg (by simp)]; exact .rfl' _
  · rw [if_neg h1, if_neg h1]; exact .rfl' _

theorem switchChunk_same {w : Walk} {s o n r c a : Nat} (h : s ≤ c ∨ a = w.overflowAram) :
    switchChunk w true s o n r c a = switchChunk w false s o n r c a := by
  unfold switchChunk
  by_cases h1 : o + n > c
  · rw [if_pos h1, if_pos h1]
    by_cases h2 : a = w.overflowAram
    · rw [if_pos h2, if_pos h2]
    · rw [if_neg h2, if_neg h2]
      have h3 : ¬ s > c := by have := h.resolve_right h2; omega
      rw [if_neg (by simp [h3]), if_neg (by simp)]
  · rw [if_neg h1, if_neg h1]

theorem writeSongTrack_orPanic (w : Walk) (off : Nat) (song : Song) (st : TrackLoop) (i : Nat) :
    OrPanic (writeSongTrack w true off song st i) (writeSongTrack w false off song st i) := by
  unfold writeSongTrack
  exact (OrPanic.rfl' _).bind fun o _ => (switchChunk_orPanic ..).bind fun x _ => .rfl' _

theorem writeSong_orPanic (w : Walk) (st : BankState) (song : Song) (l : Bool) :
    OrPanic (writeSong w true st song l) (writeSong w false st song l) := by
  unfold writeSong
  exact (switchChunk_orPanic ..).bind fun x _ => (OrPanic.rfl' _).bind fun r _ => (OrPanic.rfl' _).bind fun r' _ =>
    (OrPanic.foldlM (fun b a => writeSongTrack_orPanic ..) _ _).bind fun tl _ => .rfl' _

theorem writeBank_orPanic {Path : Type} (conv : Converter Path) (songs : List (SongDef Path)) (rom : Rom) (a f n : Nat) :
    OrPanic (writeBank conv true songs rom a f n) (writeBank conv false songs rom a f n) := by
  unfold writeBank
  exact (OrPanic.rfl' _).bind fun w _ => (OrPanic.rfl' _).bind fun o _ =>
    (OrPanic.foldlM (fun st d => (OrPanic.rfl' _).bind fun s _ => writeSong_orPanic ..) _ _).bind fun st _ => .rfl' _

theorem writeBanks_orPanic {Path : Type} (conv : Converter Path) : ∀ (js : List (List (SongDef Path) × Nat × Nat)) (rom : Rom) (n : Nat),
    OrPanic (writeBanks conv true js rom n) (writeBanks conv false js rom n) := by
  intro js
  induction js with
  | nil => intro rom n; exact .rfl' _
  | cons j js ih =>
    intro rom n
    rw [writeBanks, writeBanks]
    exact (writeBank_orPanic ..).bind fun r _ => ih r _

/-! No panic when there is room for the song table. -/

theorem foldlM_same {α β : Type} {f g : β → α → Res β} {I : β → Prop} (h : ∀ b a, I b → f b a = g b a) (hI : ∀ b a b', I b → g b a = .ok b' → I b') :
    ∀ (l : List α) (b : β), I b → l.foldlM f b = l.foldlM g b ∧ ∀ b', l.foldlM g b = .ok b' → I b' := by
  intro l
  induction l with
  | nil => intro b hb; exact ⟨rfl, fun b' h => by cases h; exact hb⟩
  | cons a l ih =>
    intro b hb
    rw [List.foldlM_cons, List.foldlM_cons, h b a hb]
    cases hg : g b a with
    | error e => exact ⟨rfl, fun b' h => by cases h⟩
    | ok x => exact ih x (hI b a x hb hg)

/-- Still in the base chunk with everything within it, or already in the overflow chunk. -/
def Within (w : Walk) (off len aram : Nat) : Prop := off ≤ len ∨ aram = w.overflowAram

theorem switchChunk_within {w : Walk} {v : Bool} {s o n r c a : Nat} {x : Bool × Nat × Nat × Nat × Nat} (h : switchChunk w v s o n r c a = .ok x) :
    Within w (x.2.1 + n) x.2.2.2.1 x.2.2.2.2 ∧ (x.1 = false → x.2.1 = o ∧ x.2.2.2.1 = c ∧ x.2.2.2.2 = a) ∧ (x.1 = true → x.2.2.2.2 = w.overflowAram) := by
  unfold switchChunk at h
  by_cases h1 : o + n > c
  · rw [if_pos h1] at h
    by_cases h2 : a = w.overflowAram
    · rw [if_pos h2] at h; cases h
    · rw [if_neg h2] at h
      split at h
      · cases h
      · cases h; exact ⟨.inr rfl, by simp, fun _ => rfl⟩
  · rw [if_neg h1] at h
    cases h
    exact ⟨.inl (by simpa using h1), fun _ => ⟨rfl, rfl, rfl⟩, by simp⟩

theorem writeSongTrack_same {w : Walk} {off : Nat} {song : Song} {st : TrackLoop} {i : Nat} (h : Within w off st.chunkLength st.aramBaseAddr) :
    writeSongTrack w true off song st i = writeSongTrack w false off song st i := by
  unfold writeSongTrack
  simp only [switchChunk_same h]

theorem writeSongTrack_within {w : Walk} {off : Nat} {song : Song} {st st' : TrackLoop} {i : Nat} (h : Within w off st.chunkLength st.aramBaseAddr)
    (hs : writeSongTrack w false off song st i = .ok st') :
    Within w off st'.chunkLength st'.aramBaseAddr ∧ Within w st'.trackOffset st'.chunkLength st'.aramBaseAddr := by
  unfold writeSongTrack at hs
  simp only [res_bind] at hs
  obtain ⟨o, -, ⟨b, o1, r1, c1, a1⟩, h2, hs⟩ := hs
  obtain ⟨k1, k2, k3⟩ := switchChunk_within h2
  have key : Within w off c1 a1 ∧ Within w (o1 + o.bytes.length) c1 a1 := by
    refine ⟨?_, k1⟩
    cases b with
    | true => exact .inr (k3 rfl)
    | false =>
      obtain ⟨-, e1, e2⟩ := k2 rfl
      simp only at e1 e2
      subst e1 e2
      exact h
  simp only at hs
  by_cases hl : o.bytes.length > 0
  · rw [if_pos hl] at hs
    simp only [res_bind, res_pure] at hs
    obtain ⟨r, -, rfl⟩ := hs
    exact key
  · rw [if_neg hl] at hs
    simp only [res_pure] at hs
    subst hs
    have : o.bytes.length = 0 := by omega
    rw [this] at key
    exact key

theorem writeSong_same {w : Walk} {st : BankState} {song : Song} {l : Bool} (h : Within w st.songOffset st.chunkLength st.aramBaseAddr) :
    writeSong w true st song l = writeSong w false st song l ∧
    ∀ st', writeSong w false st song l = .ok st' → Within w st'.songOffset st'.chunkLength st'.aramBaseAddr := by
  unfold writeSong
  rw [switchChunk_same h]
  cases hx : switchChunk w false st.songOffset st.songOffset (songHeaderSize l + 16) st.romAddr st.chunkLength st.aramBaseAddr with
  | error e => exact ⟨rfl, fun st' h => by cases h⟩
  | ok x =>
    obtain ⟨b, o1, r1, c1, a1⟩ := x
    obtain ⟨k1, -, -⟩ := switchChunk_within hx
    simp only at k1
    have k0 : Within w o1 c1 a1 := k1.imp (fun h => by omega) id
    have fold := fun rom : Rom => foldlM_same (f := writeSongTrack w true o1 song) (g := writeSongTrack w false o1 song)
      (I := fun st => Within w o1 st.chunkLength st.aramBaseAddr ∧ Within w st.trackOffset st.chunkLength st.aramBaseAddr)
      (fun b a hb => writeSongTrack_same hb.1) (fun b a b' hb he => writeSongTrack_within hb.1 he) (List.range song.tracks.length)
      { rom := rom, romAddr := r1, chunkLength := c1, aramBaseAddr := a1, trackOffset := o1 + songHeaderSize l + 16, trackAddrs := [], callLoops := [] }
      ⟨k0, by simpa [Nat.add_assoc] using k1⟩
    constructor
    · simp only [bind, Except.bind]
      repeat' split
      all_goals first
        | rfl
        | (rename_i h1 h2 ; simp_all)
    · intro st' hs
      have hs' := hs
      simp only [res_bind, res_pure] at hs'
      obtain ⟨_, hx', rom1, -, rom2, -, tl, htl, rom3, -, part, -, rom4, -, rom5, -, rfl⟩ := hs'
      cases hx'
      exact ((fold rom2).2 tl htl).2

theorem writeBank_same {Path : Type} (conv : Converter Path) (songs : List (SongDef Path)) (rom : Rom) (a f n : Nat)
    (h : ∀ w, findChunks rom a = .ok w → f - aramBase ≤ w.baseLen) :
    writeBank conv true songs rom a f n = writeBank conv false songs rom a f n := by
  unfold writeBank
  cases hw : findChunks rom a with
  | error e => rfl
  | ok w =>
    have h' := h w hw
    cases ho : subU f aramBase with
    | error e => rfl
    | ok o =>
      have : o = f - aramBase := (subU_ok.mp ho).2
      have fold := foldlM_same (f := fun st (d : SongDef Path) => loadSong conv d >>= fun song => writeSong w true st song d.loops)
        (g := fun st d => loadSong conv d >>= fun song => writeSong w false st song d.loops)
        (I := fun st => Within w st.songOffset st.chunkLength st.aramBaseAddr)
        (fun st d hb => by
          cases loadSong conv d with
          | error e => rfl
          | ok s => exact (writeSong_same hb).1)
        (fun st d st' hb he => by
          rw [res_bind] at he
          obtain ⟨s, -, he⟩ := he
          exact (writeSong_same hb).2 st' he) songs
        { rom := rom, romAddr := w.baseAddr, chunkLength := w.baseLen, aramBaseAddr := aramBase, songOffset := o, songTableAddr := w.baseAddr + n * 2 }
        (.inl (by simp only; omega))
      exact congrArg (fun x : Res BankState => x >>= fun st => pokes st.rom ((List.range' st.songTableAddr (w.baseAddr + f - aramBase - st.songTableAddr)).map fun i => (i, 0)))
        fold.1

end M2S
