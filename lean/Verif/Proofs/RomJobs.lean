import Verif.Proofs.RomAram
import Verif.Proofs.RomFit
/-
Building several banks one after the other.
-/
namespace M2S
open RomSpec

theorem Built.length {b : Bank} {B : PlacedBank} {first fs : Nat} {es : List Encoded} {rom r : Rom} (h : Built b B first fs es rom r) :
    r.length = rom.length := by rw [h.result, applyW_length]

theorem Laid.range {b : Bank} {B : PlacedBank} {first fs : Nat} {es : List Encoded} (h : Laid b B first fs es)
    (hroom : first - 0xd000 ≤ b.songs.len) {x : Nat × UInt8} (hx : x ∈ B.writes) : b.Data x.1 := by
  have e3 : aramBase = 0xd000 := rfl
  have hb := h.base
  have ht := h.table
  have hf := h.first
  rcases h.good.range hx with ⟨h1, h2⟩ | ⟨i, hi, hh⟩
  · left
    unfold ChunkInfo.next
    unfold ChunkInfo.data at *
    omega
  · obtain ⟨h1, h2⟩ := h.items i hi
    unfold Item.Has Item.pos Cur.pos at hh
    rcases h2 with ⟨e1, e2, -⟩ | ⟨e1, e2, -⟩
    · left
      unfold ChunkInfo.next
      unfold ChunkInfo.data at *
      omega
    · right
      unfold ChunkInfo.next
      unfold ChunkInfo.data at *
      omega

theorem Built.unchanged {b : Bank} {B : PlacedBank} {first fs : Nat} {es : List Encoded} {rom r : Rom} (h : Built b B first fs es rom r)
    (hroom : first - 0xd000 ≤ b.songs.len) {q : Nat} (hq : ¬ b.Data q) : r[q]? = rom[q]? := by
  by_cases hlt : q < rom.length
  · rw [h.result, applyW_get _ _ _ hlt, lastW_none.mpr]
    · rfl
    · intro x hx hxq
      apply hq
      rw [← hxq]
      exact h.toLaid.range hroom hx
  · rw [List.getElem?_eq_none (by rw [h.length]; omega), List.getElem?_eq_none (by omega)]

theorem chunks_congr {m m' : Mem} : ∀ {l : List ChunkInfo} {p : Nat}, Chunks m p l → (∀ c ∈ l, ∀ i, c.pos ≤ i → i < c.pos + 4 → m' i = m i) →
    Chunks m' p l := by
  intro l
  induction l with
  | nil => intro p _ _; exact .nil p
  | cons c l ih =>
    intro p h hc
    obtain ⟨h1, h2⟩ := chunks_tail h
    refine .cons ?_ (ih h2 fun d hd => hc d (List.mem_cons_of_mem _ hd))
    rw [header_congr fun i hi1 hi2 => hc c (List.mem_cons_self ..) i (by rw [header_pos h1]; exact hi1) (by rw [header_pos h1]; exact hi2)]
    exact h1

theorem bankIn_congr {b : Bank} {m m' : Mem} {base : Nat} (h : b.In m base) (hm : ∀ q, b.Meta base q → m' q = m q) : b.In m' base where
  pointer := by
    unfold bankPointer
    rw [hm _ (.inl rfl), hm _ (.inr (.inl rfl)), hm _ (.inr (.inr (.inl rfl)))]
    exact h.pointer
  chunks := chunks_congr h.chunks fun c hc i h1 h2 => hm i (.inr (.inr (.inr ⟨c, hc, h1, h2⟩)))
  last := h.last
  inner := h.inner
  songs := h.songs
  later := h.later

theorem allReady_congr {Path : Type} {conv : Converter Path} {m m' : Mem} : ∀ {js : List (Job Path)} {fs : Nat}, AllReady conv m fs js →
    (∀ j ∈ js, ∀ q, j.bank.Meta j.base q → m' q = m q) → AllReady conv m' fs js := by
  intro js
  induction js with
  | nil => intro fs _ _; trivial
  | cons j js ih =>
    intro fs h hm
    exact ⟨⟨h.1.addr, bankIn_congr h.1.bank (hm j (List.mem_cons_self ..)), h.1.songs, h.1.fits⟩,
      ih h.2 fun k hk => hm k (List.mem_cons_of_mem _ hk)⟩

/-- Everything about building several banks that are ready. -/
theorem writeBanks_built {Path : Type} {conv : Converter Path} {v : Bool} : ∀ {js : List (Job Path)} {fs : Nat} {rom r : Rom},
    AllReady conv (ofRom rom) fs js → HeadersSafe js → writeBanks conv v (js.map Job.args) rom fs = .ok r →
    r.length = rom.length ∧ (∀ q, (∀ j ∈ js, ¬ j.bank.Data q) → r[q]? = rom[q]?) ∧
    ∀ pre j post, js = pre ++ j :: post → ∃ rom' r' B, Built j.bank B j.first (fs + (pre.map fun k => k.songs.length).sum) j.encoded rom' r' ∧
      ∀ q, (∀ k ∈ post, ¬ k.bank.Data q) → r[q]? = r'[q]? := by
  intro js
  induction js with
  | nil =>
    intro fs rom r _ _ h
    cases h
    exact ⟨rfl, fun _ _ => rfl, by intro pre j post h; simp at h⟩
  | cons j js ih =>
    intro fs rom r hready hsafe h
    rw [List.map_cons, Job.args, writeBanks, res_bind] at h
    obtain ⟨r1, h1, h⟩ := h
    obtain ⟨B, hB⟩ := built_of_ok hready.1.addr hready.1.bank hready.1.songs hready.1.fits h1
    have hun : ∀ q, ¬ j.bank.Data q → r1[q]? = rom[q]? := fun q hq => hB.unchanged hready.1.fits.start hq
    have hready' : AllReady conv (ofRom r1) (fs + j.songs.length) js := by
      refine allReady_congr hready.2 fun k hk q hq => hun q fun hd => ?_
      exact hsafe j (List.mem_cons_self ..) k (List.mem_cons_of_mem _ hk) q hd hq
    obtain ⟨hl, hout, hall⟩ := ih hready' (fun a ha b hb => hsafe a (List.mem_cons_of_mem _ ha) b (List.mem_cons_of_mem _ hb)) h
    refine ⟨hl.trans hB.length, ?_, ?_⟩
    · intro q hq
      rw [hout q fun k hk => hq k (List.mem_cons_of_mem _ hk), hun q (hq j (List.mem_cons_self ..))]
    · intro pre k post hsplit
      cases pre with
      | nil =>
        simp only [List.nil_append, List.cons.injEq] at hsplit
        obtain ⟨rfl, rfl⟩ := hsplit
        exact ⟨rom, r1, B, by simpa using hB, hout⟩
      | cons p pre =>
        simp only [List.cons_append, List.cons.injEq] at hsplit
        obtain ⟨rfl, rfl⟩ := hsplit
        obtain ⟨rom', r', B', hB', hr'⟩ := hall pre k post rfl
        refine ⟨rom', r', B', ?_, hr'⟩
        rw [List.map_cons, List.sum_cons, ← Nat.add_assoc]
        exact hB'

/-! Building again. -/

def Walk.core (w : Walk) : Walk := { w with addr := 0, lastLength := 0 }

theorem placeTracks_core (w : Walk) (v : Bool) (so : Nat) (song : Song) : ∀ (is : List Nat) (c : Cur),
    placeTracks w.core v so song is c = placeTracks w v so song is c := by
  intro is
  induction is with
  | nil => intro c; rfl
  | cons i is ih => intro c; simp only [placeTracks, ih]; rfl

theorem placeSong_core (w : Walk) (v : Bool) (c : Cur) (t : Nat) (song : Song) (loops : Bool) :
    placeSong w.core v c t song loops = placeSong w v c t song loops := by
  simp only [placeSong, placeTracks_core]; rfl

theorem placeBank_core {Path : Type} (conv : Converter Path) (w : Walk) (v : Bool) : ∀ (ds : List (SongDef Path)) (c : Cur) (t : Nat),
    placeBank conv w.core v ds c t = placeBank conv w v ds c t := by
  intro ds
  induction ds with
  | nil => intro c t; rfl
  | cons d ds ih => intro c t; simp only [placeBank, ih, placeSong_core]

/-- The writes of a build depend on the ROM only through the bank's chunks. -/
theorem writeBank_indep {Path : Type} {conv : Converter Path} {v : Bool} {songs : List (SongDef Path)} {rom r : Rom} {base first fs : Nat} {b : Bank}
    (hb : base + 8 < 2 ^ 24) (hin : b.In (ofRom rom) base) (h : writeBank conv v songs rom base first fs = .ok r) :
    ∃ ws, r = applyW rom ws ∧ ∀ rom' : Rom, rom'.length = rom.length → b.In (ofRom rom') base →
      writeBank conv v songs rom' base first fs = .ok (applyW rom' ws) := by
  obtain ⟨w, ps, c, hw, hfirst, hpl, hidx, hrange, hr⟩ := writeBank_ok.mp h
  refine ⟨_, hr, ?_⟩
  intro rom' hlen hin'
  obtain ⟨w1, hw1, e1, e2, e3, e4, e5⟩ := bankIn_found hb hin
  obtain ⟨w2, hw2, f1, f2, f3, f4, f5⟩ := bankIn_found hb hin'
  rw [hw] at hw1
  cases hw1
  have hcore : w.core = w2.core := by
    unfold Walk.core
    rw [e1, e2, e3, e4, e5, f1, f2, f3, f4, f5]
  have hst : startCur w first = startCur w2 first := by unfold startCur; rw [e1, e2, f1, f2]
  have hpl2 : placeBank conv w2 v songs (startCur w2 first) (w2.baseAddr + 2 * fs) = .ok (ps, c) := by
    rw [← placeBank_core, ← hcore, placeBank_core, ← hst, f1, ← e1]
    exact hpl
  have hwr : (PlacedBank.mk w first (w.baseAddr + 2 * fs) ps).writes = (PlacedBank.mk w2 first (w2.baseAddr + 2 * fs) ps).writes := by
    unfold PlacedBank.writes
    simp only
    rw [e1, f1]
  rw [hwr]
  refine writeBank_ok.mpr ⟨w2, ps, c, hw2, hfirst, hpl2, hidx, ?_, rfl⟩
  rw [← hwr, hlen]
  exact hrange

theorem writeBanks_indep {Path : Type} {conv : Converter Path} {v : Bool} : ∀ {js : List (Job Path)} {fs : Nat} {rom r : Rom},
    AllReady conv (ofRom rom) fs js → HeadersSafe js → writeBanks conv v (js.map Job.args) rom fs = .ok r →
    ∃ ws, r = applyW rom ws ∧ ∀ rom' : Rom, rom'.length = rom.length → AllReady conv (ofRom rom') fs js →
      writeBanks conv v (js.map Job.args) rom' fs = .ok (applyW rom' ws) := by
  intro js
  induction js with
  | nil => intro fs rom r _ _ h; cases h; exact ⟨[], rfl, fun _ _ _ => rfl⟩
  | cons j js ih =>
    intro fs rom r hready hsafe h
    rw [List.map_cons, Job.args, writeBanks, res_bind] at h
    obtain ⟨r1, h1, h⟩ := h
    obtain ⟨B, hB⟩ := built_of_ok hready.1.addr hready.1.bank hready.1.songs hready.1.fits h1
    have hsafe' : HeadersSafe js := fun a ha b hb => hsafe a (List.mem_cons_of_mem _ ha) b (List.mem_cons_of_mem _ hb)
    have hnext : ∀ {x y : Rom} {B : PlacedBank}, Built j.bank B j.first fs j.encoded x y → AllReady conv (ofRom x) (fs + j.songs.length) js →
        AllReady conv (ofRom y) (fs + j.songs.length) js := by
      intro x y B hB hr
      refine allReady_congr hr fun k hk q hq => hB.unchanged hready.1.fits.start fun hd => ?_
      exact hsafe j (List.mem_cons_self ..) k (List.mem_cons_of_mem _ hk) q hd hq
    obtain ⟨ws1, hr1, hi1⟩ := writeBank_indep hready.1.addr hready.1.bank h1
    obtain ⟨ws2, hr2, hi2⟩ := ih (hnext hB hready.2) hsafe' h
    refine ⟨ws1 ++ ws2, by rw [applyW_append, ← hr1, hr2], ?_⟩
    intro rom' hlen hready2
    rw [List.map_cons, Job.args, writeBanks, res_bind]
    have hok := hi1 rom' hlen hready2.1.bank
    obtain ⟨B', hB'⟩ := built_of_ok hready2.1.addr hready2.1.bank hready2.1.songs hready2.1.fits hok
    refine ⟨_, hok, ?_⟩
    rw [applyW_append]
    refine hi2 _ ?_ (hnext hB' hready2.2)
    rw [applyW_length, hlen, hB.length]

end M2S
