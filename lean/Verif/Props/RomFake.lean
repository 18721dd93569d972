import Verif.Proofs.RomFake
import Verif.Proofs.RomDemo
/-
C45: fake ROMs.
-/
namespace M2S
open RomSpec

/-- **C45.** A fake ROM has the length of the original; every byte is 0, except those of the bank pointers and of the headers of the banks' chunk lists, which
are the original ones; and each bank has the same chunk list in it as in the original. -/
theorem C45_fake (rom out : Rom) (addrs : List Nat) (hb : ∀ base ∈ addrs, base + 8 < 2 ^ 24) (h : genFakeRom rom addrs = .ok out) :
    out.length = rom.length ∧ ∃ ls : List Listed,
      List.Forall₂ (fun base l => l.In (ofRom rom) base ∧ l.In (ofRom out) base) addrs ls ∧
      ∀ q < rom.length, ((∃ b ∈ addrs.zip ls, Skeleton b.1 (b.2.chunks ++ [b.2.stop]) q) → out[q]? = rom[q]?) ∧
        ((¬ ∃ b ∈ addrs.zip ls, Skeleton b.1 (b.2.chunks ++ [b.2.stop]) q) → out[q]? = some 0) := by
  unfold genFakeRom at h
  have hlen : (List.replicate rom.length (0 : UInt8)).length = rom.length := by simp
  obtain ⟨ls, hls, rfl⟩ := (fakeFold_ok addrs hb hlen).mp h
  have hsame : ∀ x ∈ fakeWrites rom (addrs.zip ls), rom[x.1]? = some x.2 := by
    intro x hx
    obtain ⟨b, hb', hx⟩ := List.mem_flatMap.mp hx
    exact listedWrites_same (forall₂_zip hls b hb') x hx
  have hpos : ∀ q, (∃ x ∈ fakeWrites rom (addrs.zip ls), x.1 = q) ↔ ∃ b ∈ addrs.zip ls, Skeleton b.1 (b.2.chunks ++ [b.2.stop]) q := by
    intro q
    constructor
    · rintro ⟨x, hx, e⟩
      obtain ⟨b, hb', hx⟩ := List.mem_flatMap.mp hx
      exact ⟨b, hb', (listedWrites_pos rom b.1 b.2 q).mp ⟨x, hx, e⟩⟩
    · rintro ⟨b, hb', hs⟩
      obtain ⟨x, hx, e⟩ := (listedWrites_pos rom b.1 b.2 q).mpr hs
      exact ⟨x, List.mem_flatMap.mpr ⟨b, hb', hx⟩, e⟩
  refine ⟨by rw [applyW_length]; exact hlen, ls, ?_, ?_⟩
  · have : ∀ {as : List Nat} {ms : List Listed}, List.Forall₂ (fun base l => l.In (ofRom rom) base) as ms → (∀ x ∈ as.zip ms, x ∈ addrs.zip ls) →
        List.Forall₂ (fun base l => l.In (ofRom rom) base ∧
          l.In (ofRom (applyW (List.replicate rom.length 0) (fakeWrites rom (addrs.zip ls)))) base) as ms := by
      intro as ms hf
      induction hf with
      | nil => intro _; exact .nil
      | @cons a m as ms hl _ ih =>
        intro hsub
        refine .cons ⟨hl, listedIn_congr hl fun q hq => ?_⟩ (ih fun x hx => hsub x (List.mem_cons_of_mem _ hx))
        exact (applyW_copy hlen hsame q).1 ((hpos q).mpr ⟨(a, m), hsub _ (List.mem_cons_self ..), hq⟩)
    exact this hls fun _ h => h
  · intro q hq
    obtain ⟨h1, h2⟩ := applyW_copy hlen hsame q
    refine ⟨fun hs => h1 ((hpos q).mpr hs), fun hs => ?_⟩
    rw [h2 fun hx => hs ((hpos q).mp hx)]
    simp [hq]

/-- **C45.** Making a fake ROM of a fake ROM gives the same again. -/
theorem C45_again (rom out : Rom) (addrs : List Nat) (hb : ∀ base ∈ addrs, base + 8 < 2 ^ 24) (h : genFakeRom rom addrs = .ok out) :
    genFakeRom out addrs = .ok out := by
  obtain ⟨hl, ls, hls, hq⟩ := C45_fake rom out addrs hb h
  have h2 : ∃ out', genFakeRom out addrs = .ok out' ∧ out' = applyW (List.replicate out.length 0) (fakeWrites out (addrs.zip ls)) := by
    refine ⟨_, (fakeFold_ok addrs hb (by simp)).mpr ⟨ls, ?_, rfl⟩, rfl⟩
    exact hls.imp fun _ _ h => h.2
  obtain ⟨out', h', e⟩ := h2
  rw [h']
  congr 1
  have hlen : (List.replicate out.length (0 : UInt8)).length = out.length := by simp
  have hls' : List.Forall₂ (fun base l => l.In (ofRom out) base) addrs ls := hls.imp fun _ _ h => h.2
  have hsame : ∀ x ∈ fakeWrites out (addrs.zip ls), out[x.1]? = some x.2 := by
    intro x hx
    obtain ⟨b, hb', hx⟩ := List.mem_flatMap.mp hx
    exact listedWrites_same (forall₂_zip hls' b hb') x hx
  apply List.ext_getElem?
  intro q
  rw [e]
  obtain ⟨h1, h2⟩ := applyW_copy hlen hsame q
  by_cases hx : ∃ x ∈ fakeWrites out (addrs.zip ls), x.1 = q
  · exact h1 hx
  · rw [h2 hx]
    by_cases hlt : q < rom.length
    · rw [(hq q hlt).2]
      · simp [hl, hlt]
      · rintro ⟨b, hb', hs⟩
        obtain ⟨x, hx', e'⟩ := (listedWrites_pos out b.1 b.2 q).mpr hs
        exact hx ⟨x, List.mem_flatMap.mpr ⟨b, hb', hx'⟩, e'⟩
    · rw [List.getElem?_eq_none (by simp; omega), List.getElem?_eq_none (by omega)]

/-- **C45.** A fake ROM is made exactly if every bank has a chunk list; otherwise it panics, see `C45_total`. -/
theorem C45_ok_iff (rom : Rom) (addrs : List Nat) (hb : ∀ base ∈ addrs, base + 8 < 2 ^ 24) :
    ((∃ out, genFakeRom rom addrs = .ok out) ↔ ∀ base ∈ addrs, ∃ l : Listed, l.In (ofRom rom) base) := by
  constructor
  · rintro ⟨out, h⟩ base hm
    obtain ⟨-, ls, hls, -⟩ := C45_fake rom out addrs hb h
    clear h hb
    induction hls with
    | nil => cases hm
    | cons h _ ih =>
      rcases List.mem_cons.mp hm with rfl | hm
      · exact ⟨_, h.1⟩
      · exact ih hm
  · intro h
    have : ∃ ls : List Listed, List.Forall₂ (fun base l => l.In (ofRom rom) base) addrs ls := by
      clear hb
      induction addrs with
      | nil => exact ⟨[], .nil⟩
      | cons a addrs ih =>
        obtain ⟨l, hl⟩ := h a (List.mem_cons_self ..)
        obtain ⟨ls, hls⟩ := ih fun b hb => h b (List.mem_cons_of_mem _ hb)
        exact ⟨l :: ls, .cons hl hls⟩
    obtain ⟨ls, hls⟩ := this
    exact ⟨_, (fakeFold_ok addrs hb (by simp)).mpr ⟨ls, hls, rfl⟩⟩

/-- **C45.** The copying always ends: for every image and all addresses there is a result or an out-of-range panic. -/
theorem C45_total (rom : Rom) (addrs : List Nat) : (∃ out, genFakeRom rom addrs = .ok out) ∨ genFakeRom rom addrs = .error .panic := by
  have hpk : ∀ i, PanicOnly (peek rom i) := by
    intro i
    unfold peek
    split
    · exact panicOnly_ok _
    · exact panicOnly_panicked
  have hp : PanicOnly (genFakeRom rom addrs) := by
    unfold genFakeRom
    refine panicOnly_foldlM _ _ (fun o base => ?_) _
    unfold fakeBank bankStart
    refine PanicOnly.bind ((panicOnly_addU32 _ _).bind fun _ _ => (hpk _).bind fun _ _ => (panicOnly_addU32 _ _).bind fun _ _ =>
      (hpk _).bind fun _ _ => (hpk _).bind fun _ _ => panicOnly_pure _) fun r _ => ?_
    exact (panicOnly_pokes _ _).bind fun o _ => fakeLoop_total rom.length (by omega)
  cases h : genFakeRom rom addrs with
  | ok out => exact .inl ⟨out, rfl⟩
  | error e => rw [hp e h]; exact .inr rfl

/-- The three-bank ROM of the examples has a fake: pointers and headers are kept, data is gone. -/
example : ∃ out, genFakeRom threeRom [0, 12, 24] = .ok out ∧ out.take 12 = threeRom.take 12 ∧ out[40]? = some 0 ∧ threeRom[40]? = some 0xaa ∧
    (out.drop 41).take 4 = [114, 0, 0, 0xd0] :=
  ⟨(genFakeRom threeRom [0, 12, 24]).toOption.getD [], by decide +kernel, by decide +kernel, by decide +kernel, by decide +kernel, by decide +kernel⟩

end M2S
