import Verif.Proofs.RomWalk
/-
Helper lemmas on `gen_fake_rom`.
-/
namespace M2S
open RomSpec

/-- The byte writes of a chunk header. -/
def headerWrites (c : ChunkInfo) : List (Nat × UInt8) :=
  [(c.pos, UInt8.ofNat c.len), (c.pos + 1, UInt8.ofNat (c.len / 256)), (c.pos + 2, UInt8.ofNat c.aram), (c.pos + 3, UInt8.ofNat (c.aram / 256))]

theorem writeHeader_eq (c : ChunkInfo) (rom : Rom) : (toChunk c).writeHeader rom c.pos = pokes rom (headerWrites c) := by
  unfold Chunk.writeHeader headerWrites toChunk
  simp only [Nat.shiftRight_eq_div_pow, Nat.and_two_pow_sub_one_eq_mod _ 8]
  have e : ∀ n : Nat, UInt8.ofNat (n % 2 ^ 8) = UInt8.ofNat n := fun n => UInt8.toNat_inj.mp (by simp)
  simp only [e]

/-- A header's writes repeat the bytes it was read from. -/
theorem headerWrites_same {rom : Rom} {p : Nat} {c : ChunkInfo} (h : header (ofRom rom) p = some c) :
    ∀ x ∈ headerWrites c, rom[x.1]? = some x.2 := by
  have hp := header_pos h
  unfold header word ofRom at h
  cases h0 : rom[p]? with
  | none => rw [h0] at h; simp at h
  | some b0 =>
    cases h1 : rom[p + 1]? with
    | none => rw [h0, h1] at h; simp at h
    | some b1 =>
      cases h2 : rom[p + 2]? with
      | none => rw [h0, h1, h2] at h; simp at h
      | some b2 =>
        cases h3 : rom[p + 2 + 1]? with
        | none => rw [h0, h1, h2, h3] at h; simp at h
        | some b3 =>
          rw [h0, h1, h2, h3] at h
          simp only [Option.some.injEq] at h
          subst h
          have l0 := b0.toNat_lt
          have l1 := b1.toNat_lt
          have l2 := b2.toNat_lt
          have l3 := b3.toNat_lt
          have a0 : UInt8.ofNat (b0.toNat + 256 * b1.toNat) = b0 := UInt8.toNat_inj.mp (by rw [UInt8.toNat_ofNat']; omega)
          have a1 : UInt8.ofNat ((b0.toNat + 256 * b1.toNat) / 256) = b1 := UInt8.toNat_inj.mp (by rw [UInt8.toNat_ofNat']; omega)
          have a2 : UInt8.ofNat (b2.toNat + 256 * b3.toNat) = b2 := UInt8.toNat_inj.mp (by rw [UInt8.toNat_ofNat']; omega)
          have a3 : UInt8.ofNat ((b2.toNat + 256 * b3.toNat) / 256) = b3 := UInt8.toNat_inj.mp (by rw [UInt8.toNat_ofNat']; omega)
          intro x hx
          simp only [headerWrites, List.mem_cons, List.not_mem_nil, or_false] at hx
          rcases hx with rfl | rfl | rfl | rfl
          · simp only [a0]; exact h0
          · simp only [a1]; exact h1
          · simp only [a2]; exact h2
          · simp only [a3]; exact h3

theorem headerWrites_pos (c : ChunkInfo) (q : Nat) : (∃ x ∈ headerWrites c, x.1 = q) ↔ c.pos ≤ q ∧ q < c.pos + 4 := by
  simp only [headerWrites, List.mem_cons, List.not_mem_nil, or_false, exists_eq_or_imp, exists_eq_left]
  omega

/-- What the copy loop does, when it ends. -/
theorem fakeLoop_ok {rom : Rom} : ∀ (fuel : Nat) {last addr : Nat} {out out' : Rom}, last ≠ 0 → out.length = rom.length →
    fakeLoop rom fuel last addr out = .ok out' → ∃ cs stop, ChunkList (ofRom rom) addr cs stop ∧
      out' = applyW out ((cs ++ [stop]).flatMap headerWrites) := by
  intro fuel
  induction fuel with
  | zero => intro last addr out out' h0 _ h; rw [fakeLoop, if_neg h0] at h; cases h
  | succ fuel ih =>
    intro last addr out out' h0 hlen h
    rw [fakeLoop, if_neg h0, res_bind] at h
    obtain ⟨c, hc, h⟩ := h
    rw [res_bind] at h
    obtain ⟨o1, ho, h⟩ := h
    obtain ⟨i, hi, rfl⟩ := chunkLoad_ok.mp hc
    rw [← header_pos hi, writeHeader_eq] at ho
    obtain ⟨-, rfl⟩ := pokes_ok.mp ho
    by_cases hz : i.len = 0
    · have hr : fakeLoop rom fuel (toChunk i).length ((toChunk i).offsetAddr + (toChunk i).length) (applyW out (headerWrites i)) =
          .ok (applyW out (headerWrites i)) := by
        have : (toChunk i).length = 0 := hz
        cases fuel <;> rw [fakeLoop, if_pos this]
      rw [hr] at h
      cases h
      refine ⟨[], i, ⟨.cons hi (.nil _), by simp, hz⟩, by simp⟩
    · obtain ⟨cs, stop, ⟨hch, hnz, hst⟩, rfl⟩ := ih (last := (toChunk i).length) hz (by rw [applyW_length]; exact hlen) h
      refine ⟨i :: cs, stop, ⟨.cons hi ?_, ?_, hst⟩, ?_⟩
      · exact hch
      · intro c hc
        rcases List.mem_cons.mp hc with rfl | hc
        · exact hz
        · exact hnz c hc
      · rw [List.cons_append, List.flatMap_cons, applyW_append]

/-- On a chunk list the copy loop does end. -/
theorem fakeLoop_list {rom : Rom} : ∀ (cs : List ChunkInfo) (fuel : Nat) {last addr : Nat} {out : Rom} {stop : ChunkInfo}, last ≠ 0 →
    out.length = rom.length → ChunkList (ofRom rom) addr cs stop → rom.length < addr + fuel →
    fakeLoop rom fuel last addr out = .ok (applyW out ((cs ++ [stop]).flatMap headerWrites)) := by
  intro cs
  induction cs with
  | nil =>
    intro fuel last addr out stop h0 hlen ⟨hch, hnz, hst⟩ hf
    obtain ⟨hi, -⟩ := chunks_tail hch
    have hlt := header_lt hi
    obtain ⟨fuel, rfl⟩ : ∃ f, fuel = f + 1 := ⟨fuel - 1, by omega⟩
    rw [fakeLoop, if_neg h0, res_bind]
    refine ⟨toChunk stop, chunkLoad_ok.mpr ⟨stop, hi, rfl⟩, ?_⟩
    rw [res_bind]
    refine ⟨applyW out (headerWrites stop), ?_, ?_⟩
    · rw [← header_pos hi, writeHeader_eq]
      refine pokes_ok.mpr ⟨fun x hx => ?_, rfl⟩
      obtain ⟨h, -⟩ := List.getElem?_eq_some_iff.mp (headerWrites_same hi x hx)
      omega
    · have : (toChunk stop).length = 0 := hst
      cases fuel <;> rw [fakeLoop, if_pos this] <;> simp
  | cons c cs ih =>
    intro fuel last addr out stop h0 hlen ⟨hch, hnz, hst⟩ hf
    obtain ⟨hi, ht⟩ := chunks_tail hch
    have hlt := header_lt hi
    have hpos := header_pos hi
    obtain ⟨fuel, rfl⟩ : ∃ f, fuel = f + 1 := ⟨fuel - 1, by omega⟩
    rw [fakeLoop, if_neg h0, res_bind]
    refine ⟨toChunk c, chunkLoad_ok.mpr ⟨c, hi, rfl⟩, ?_⟩
    rw [res_bind]
    refine ⟨applyW out (headerWrites c), ?_, ?_⟩
    · rw [← hpos, writeHeader_eq]
      refine pokes_ok.mpr ⟨fun x hx => ?_, rfl⟩
      obtain ⟨h, -⟩ := List.getElem?_eq_some_iff.mp (headerWrites_same hi x hx)
      omega
    · rw [List.cons_append, List.flatMap_cons, applyW_append]
      refine ih fuel (hnz c (List.mem_cons_self ..)) (by rw [applyW_length]; exact hlen) ⟨ht, fun d hd => hnz d (List.mem_cons_of_mem _ hd), hst⟩ ?_
      show rom.length < c.next + fuel
      unfold ChunkInfo.next
      omega

/-- The writes for one bank. -/
def listedWrites (rom : Rom) (base : Nat) (l : Listed) : List (Nat × UInt8) :=
  [(lorom ((base + 8) / 0x10000) (base + 8), (rom[lorom ((base + 8) / 0x10000) (base + 8)]?).getD 0),
   (lorom ((base + 4) / 0x10000) (base + 4), (rom[lorom ((base + 4) / 0x10000) (base + 4)]?).getD 0),
   (lorom (base / 0x10000) base, (rom[lorom (base / 0x10000) base]?).getD 0)] ++ (l.chunks ++ [l.stop]).flatMap headerWrites

theorem fakeBank_ok {rom out out' : Rom} {base : Nat} (hb : base + 8 < 2 ^ 24) (hlen : out.length = rom.length) :
    fakeBank rom out base = .ok out' ↔ ∃ l : Listed, l.In (ofRom rom) base ∧ out' = applyW out (listedWrites rom base l) := by
  constructor
  · intro h
    unfold fakeBank at h
    rw [res_bind] at h
    obtain ⟨⟨addr, bank, high, low⟩, hr, h⟩ := h
    simp only at h
    rw [res_bind] at h
    obtain ⟨o1, ho, h⟩ := h
    obtain ⟨hin, rfl⟩ := pokes_ok.mp ho
    obtain ⟨cs, stop, hl, rfl⟩ := fakeLoop_ok _ (by decide) (by rw [applyW_length]; exact hlen) h
    have hpt := bankStart_ok hb hr
    have hr' := hr
    unfold bankStart at hr'
    rw [res_bind] at hr'
    obtain ⟨a8, h8, hr'⟩ := hr'
    obtain ⟨-, rfl⟩ := addU32_ok.mp h8
    rw [res_bind] at hr'
    obtain ⟨b8, p8, hr'⟩ := hr'
    rw [res_bind] at hr'
    obtain ⟨a4, h4, hr'⟩ := hr'
    obtain ⟨-, rfl⟩ := addU32_ok.mp h4
    rw [res_bind] at hr'
    obtain ⟨b4, p4, hr'⟩ := hr'
    rw [res_bind] at hr'
    obtain ⟨b0, p0, hr'⟩ := hr'
    rw [res_pure] at hr'
    simp only [Prod.mk.injEq] at hr'
    obtain ⟨-, rfl, rfl, rfl⟩ := hr'
    rw [peek_ok] at p8 p4 p0
    rw [snesToPc_24 _ (by omega)] at p8 p4 p0
    refine ⟨⟨addr, cs, stop⟩, ⟨hpt, hl⟩, ?_⟩
    rw [listedWrites, applyW_append, p8, p4, p0, snesToPc_24 _ (by omega), snesToPc_24 _ (by omega), snesToPc_24 _ (by omega)]
    rfl
  · rintro ⟨l, ⟨hpt, hl⟩, rfl⟩
    obtain ⟨⟨addr, bank, high, low⟩, hr, ha⟩ := bankStart_of_pointer hb hpt
    simp only at ha
    subst ha
    have hr' := hr
    unfold bankStart at hr'
    rw [res_bind] at hr'
    obtain ⟨a8, h8, hr'⟩ := hr'
    obtain ⟨-, rfl⟩ := addU32_ok.mp h8
    rw [res_bind] at hr'
    obtain ⟨b8, p8, hr'⟩ := hr'
    rw [res_bind] at hr'
    obtain ⟨a4, h4, hr'⟩ := hr'
    obtain ⟨-, rfl⟩ := addU32_ok.mp h4
    rw [res_bind] at hr'
    obtain ⟨b4, p4, hr'⟩ := hr'
    rw [res_bind] at hr'
    obtain ⟨b0, p0, hr'⟩ := hr'
    rw [res_pure] at hr'
    simp only [Prod.mk.injEq] at hr'
    obtain ⟨-, rfl, rfl, rfl⟩ := hr'
    rw [peek_ok] at p8 p4 p0
    unfold fakeBank
    rw [res_bind]
    refine ⟨_, hr, ?_⟩
    simp only
    rw [res_bind]
    refine ⟨_, pokes_ok.mpr ⟨?_, rfl⟩, ?_⟩
    · simp only [List.mem_cons, List.not_mem_nil, or_false, forall_eq_or_imp, forall_eq, hlen]
      exact ⟨(List.getElem?_eq_some_iff.mp p8).1, (List.getElem?_eq_some_iff.mp p4).1, (List.getElem?_eq_some_iff.mp p0).1⟩
    · rw [fakeLoop_list l.chunks _ (by decide) (by rw [applyW_length]; exact hlen) hl (by omega)]
      rw [snesToPc_24 _ (by omega)] at p8 p4 p0
      rw [listedWrites, applyW_append, p8, p4, p0, snesToPc_24 _ (by omega), snesToPc_24 _ (by omega), snesToPc_24 _ (by omega)]
      rfl

/-- The writes of the whole run. -/
def fakeWrites (rom : Rom) (bs : List (Nat × Listed)) : List (Nat × UInt8) := bs.flatMap fun b => listedWrites rom b.1 b.2

theorem fakeFold_ok {rom : Rom} : ∀ (addrs : List Nat) {out out' : Rom}, (∀ base ∈ addrs, base + 8 < 2 ^ 24) → out.length = rom.length →
    (addrs.foldlM (fakeBank rom) out = .ok out' ↔ ∃ ls : List Listed, List.Forall₂ (fun base l => l.In (ofRom rom) base) addrs ls ∧
      out' = applyW out (fakeWrites rom (addrs.zip ls))) := by
  intro addrs
  induction addrs with
  | nil =>
    intro out out' _ _
    rw [List.foldlM_nil, res_pure]
    constructor
    · rintro rfl; exact ⟨[], .nil, rfl⟩
    · rintro ⟨ls, -, rfl⟩; rfl
  | cons base addrs ih =>
    intro out out' hb hlen
    rw [List.foldlM_cons, res_bind]
    constructor
    · rintro ⟨o1, h1, h⟩
      obtain ⟨l, hl, rfl⟩ := (fakeBank_ok (hb _ (List.mem_cons_self ..)) hlen).mp h1
      obtain ⟨ls, hls, rfl⟩ := (ih (fun b h => hb b (List.mem_cons_of_mem _ h)) (by rw [applyW_length]; exact hlen)).mp h
      refine ⟨l :: ls, .cons hl hls, ?_⟩
      exact (applyW_append _ _ _).symm
    · rintro ⟨ls, h, rfl⟩
      obtain _ | ⟨hl, hls⟩ := h
      refine ⟨_, (fakeBank_ok (hb _ (List.mem_cons_self ..)) hlen).mpr ⟨_, hl, rfl⟩, ?_⟩
      refine (ih (fun b h => hb b (List.mem_cons_of_mem _ h)) (by rw [applyW_length]; exact hlen)).mpr ⟨_, hls, ?_⟩
      exact applyW_append _ _ _

theorem listedWrites_same {rom : Rom} {base : Nat} {l : Listed} (h : l.In (ofRom rom) base) : ∀ x ∈ listedWrites rom base l, rom[x.1]? = some x.2 := by
  obtain ⟨hp, hch, -, -⟩ := h
  intro x hx
  rcases List.mem_append.mp hx with hx | hx
  · unfold bankPointer ofRom at hp
    split at hp
    · rename_i low high bank h0 h4 h8
      simp only [List.mem_cons, List.not_mem_nil, or_false] at hx
      rcases hx with rfl | rfl | rfl
      · simp only; rw [h8]; rfl
      · simp only; rw [h4]; rfl
      · simp only; rw [h0]; rfl
    · cases hp
  · obtain ⟨c, hc, hx⟩ := List.mem_flatMap.mp hx
    have : ∀ {cs : List ChunkInfo} {p : Nat}, Chunks (ofRom rom) p cs → ∀ c ∈ cs, header (ofRom rom) c.pos = some c := by
      intro cs
      induction cs with
      | nil => intro p _ c hc; cases hc
      | cons d cs ih =>
        intro p h c hc
        obtain ⟨h1, h2⟩ := chunks_tail h
        rcases List.mem_cons.mp hc with rfl | hc
        · rw [header_pos h1]; exact h1
        · exact ih h2 c hc
    exact headerWrites_same (this hch c hc) x hx

theorem listedWrites_pos (rom : Rom) (base : Nat) (l : Listed) (q : Nat) :
    (∃ x ∈ listedWrites rom base l, x.1 = q) ↔ Skeleton base (l.chunks ++ [l.stop]) q := by
  unfold listedWrites Skeleton
  constructor
  · rintro ⟨x, hx, rfl⟩
    rcases List.mem_append.mp hx with hx | hx
    · simp only [List.mem_cons, List.not_mem_nil, or_false] at hx
      rcases hx with rfl | rfl | rfl
      · right; right; left; rfl
      · right; left; rfl
      · left; rfl
    · obtain ⟨c, hc, hx⟩ := List.mem_flatMap.mp hx
      right; right; right
      exact ⟨c, hc, (headerWrites_pos c _).mp ⟨x, hx, rfl⟩⟩
  · rintro (rfl | rfl | rfl | ⟨c, hc, h⟩)
    · exact ⟨_, List.mem_append.mpr (.inl (List.mem_cons_of_mem _ (List.mem_cons_of_mem _ (List.mem_cons_self ..)))), rfl⟩
    · exact ⟨_, List.mem_append.mpr (.inl (List.mem_cons_of_mem _ (List.mem_cons_self ..))), rfl⟩
    · exact ⟨_, List.mem_append.mpr (.inl (List.mem_cons_self ..)), rfl⟩
    · obtain ⟨x, hx, e⟩ := (headerWrites_pos c q).mpr h
      exact ⟨x, List.mem_append.mpr (.inr (List.mem_flatMap.mpr ⟨c, hc, hx⟩)), e⟩

theorem lastW_mem {ws : List (Nat × UInt8)} {p : Nat} {b : UInt8} (h : lastW p ws = some b) : (p, b) ∈ ws := by
  induction ws with
  | nil => cases h
  | cons x ws ih =>
    obtain ⟨i, v⟩ := x
    rw [lastW] at h
    cases hl : lastW p ws with
    | some v' =>
      rw [hl] at h
      simp only [Option.orElse, Option.some.injEq] at h
      subst h
      exact List.mem_cons_of_mem _ (ih hl)
    | none =>
      rw [hl] at h
      simp only [Option.orElse] at h
      split_ifs at h with hi
      · cases h; subst hi; exact List.mem_cons_self ..

theorem forall₂_zip {α β : Type} {R : α → β → Prop} {l : List α} {m : List β} (h : List.Forall₂ R l m) : ∀ x ∈ l.zip m, R x.1 x.2 := by
  induction h with
  | nil => intro x hx; cases hx
  | cons h _ ih =>
    intro x hx
    rcases List.mem_cons.mp hx with rfl | hx
    · exact h
    · exact ih x hx

theorem applyW_copy {rom out : Rom} {ws : List (Nat × UInt8)} (hlen : out.length = rom.length) (h : ∀ x ∈ ws, rom[x.1]? = some x.2) (q : Nat) :
    ((∃ x ∈ ws, x.1 = q) → (applyW out ws)[q]? = rom[q]?) ∧ ((¬ ∃ x ∈ ws, x.1 = q) → (applyW out ws)[q]? = out[q]?) := by
  by_cases hq : q < out.length
  · rw [applyW_get _ _ _ hq]
    cases hl : lastW q ws with
    | none =>
      have := lastW_none.mp hl
      exact ⟨fun ⟨x, hx, e⟩ => absurd e (this x hx), fun _ => rfl⟩
    | some b =>
      have hm := lastW_mem hl
      exact ⟨fun _ => (h _ hm).symm, fun hno => absurd ⟨_, hm, rfl⟩ hno⟩
  · rw [List.getElem?_eq_none (by rw [applyW_length]; omega), List.getElem?_eq_none (l := rom) (by omega), List.getElem?_eq_none (l := out) (by omega)]
    exact ⟨fun _ => rfl, fun _ => rfl⟩

theorem listedIn_congr {m m' : Mem} {base : Nat} {l : Listed} (h : l.In m base) (heq : ∀ q, Skeleton base (l.chunks ++ [l.stop]) q → m' q = m q) :
    l.In m' base := by
  obtain ⟨hp, hch, hnz, hst⟩ := h
  refine ⟨?_, ?_, hnz, hst⟩
  · unfold bankPointer
    rw [heq _ (.inl rfl), heq _ (.inr (.inl rfl)), heq _ (.inr (.inr (.inl rfl)))]
    exact hp
  · have : ∀ {cs : List ChunkInfo} {p : Nat}, Chunks m p cs → (∀ c ∈ cs, ∀ q, c.pos ≤ q → q < c.pos + 4 → m' q = m q) → Chunks m' p cs := by
      intro cs
      induction cs with
      | nil => intro p _ _; exact .nil _
      | cons d cs ih =>
        intro p h hq
        obtain ⟨h1, h2⟩ := chunks_tail h
        refine .cons ?_ (ih h2 fun c hc => hq c (List.mem_cons_of_mem _ hc))
        rw [header_congr fun i hi hi' => hq d (List.mem_cons_self ..) i (by rw [header_pos h1]; exact hi) (by rw [header_pos h1]; exact hi')]
        exact h1
    exact this hch fun c hc q h1 h2 => heq q (.inr (.inr (.inr ⟨c, hc, h1, h2⟩)))

theorem fakeLoop_total {rom : Rom} : ∀ (fuel : Nat) {last addr : Nat} {out : Rom}, rom.length < addr + (fuel + 1) →
    PanicOnly (fakeLoop rom (fuel + 1) last addr out) := by
  intro fuel
  induction fuel with
  | zero =>
    intro last addr out h
    rw [fakeLoop]
    split_ifs
    · exact panicOnly_ok _
    · intro e he
      have : chunkLoad rom addr = panicked := by
        rw [chunkLoad_eq]
        cases hh : header (ofRom rom) addr with
        | none => rfl
        | some c => have := header_lt hh; omega
      rw [this] at he
      cases he
      rfl
  | succ fuel ih =>
    intro last addr out h
    rw [fakeLoop]
    split_ifs
    · exact panicOnly_ok _
    · refine PanicOnly.bind ?_ fun c hc => ?_
      · rw [chunkLoad_eq]
        cases header (ofRom rom) addr with
        | none => exact panicOnly_panicked
        | some c => exact panicOnly_ok _
      · obtain ⟨i, hi, rfl⟩ := chunkLoad_ok.mp hc
        have := header_pos hi
        refine PanicOnly.bind (panicOnly_pokes _ _) fun o _ => ih ?_
        simp only [toChunk, ChunkInfo.data]
        omega

end M2S
