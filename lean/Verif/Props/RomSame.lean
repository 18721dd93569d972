import Verif.Proofs.RomSame
import Verif.Proofs.RomDemo
import Verif.Props.RomFake
/-
C72: what a build into a fake ROM (`genFakeRom`) tells about a build into the ROM it was made from.
-/
namespace M2S
open RomSpec

/-- Outcomes of the same build into `rom` and into `rom'`: the same error, or two images of the old lengths that are the same at every position,
except for positions where each is as before the build. -/
def SameOutcome (rom rom' : Rom) : Res Rom → Res Rom → Prop
  | .ok r, .ok r' => r.length = rom.length ∧ r'.length = rom'.length ∧
      ∀ q : Nat, r[q]? = r'[q]? ∨ (r[q]? = rom[q]? ∧ r'[q]? = rom'[q]?)
  | .error e, .error e' => e = e'
  | _, _ => False

theorem forall₂_at {α β : Type} {R : α → β → Prop} {as : List α} {bs : List β} (h : List.Forall₂ R as bs) {a : α} (ha : a ∈ as) :
    ∃ b, (a, b) ∈ as.zip bs ∧ R a b := by
  induction h with
  | nil => cases ha
  | cons h _ ih =>
    rcases List.mem_cons.mp ha with rfl | hm
    · exact ⟨_, List.mem_cons_self .., h⟩
    · obtain ⟨l, h1, h2⟩ := ih hm
      exact ⟨l, List.mem_cons_of_mem _ h1, h2⟩

/-- **C72 (one bank).** Let `fake` be the fake ROM of `rom`, and let the end mark of the bank's chunk list not name D000. Then writing songs to the bank fails in `fake`
if and only if it fails in `rom`, with the same error, and if it succeeds, the same bytes are written to the same places. This holds for all songs, converters, bank sizes and first song addresses. -/
theorem C72_bank_partial {Path : Type} (conv : Converter Path) (v : Bool) (songs : List (SongDef Path)) (rom fake : Rom) (addrs : List Nat)
    (hb : ∀ base ∈ addrs, base + 8 < 2 ^ 24) (h : genFakeRom rom addrs = .ok fake) (base first fs : Nat) (hbase : base ∈ addrs)
    (hstop : ∀ l : Listed, l.In (ofRom rom) base → l.stop.aram ≠ 0xd000) :
    SameOutcome rom fake (writeBank conv v songs rom base first fs) (writeBank conv v songs fake base first fs) := by
  obtain ⟨hl, ls, hls, hq⟩ := C45_fake rom fake addrs hb h
  obtain ⟨l, hz, hin, -⟩ := forall₂_at hls hbase
  have hsk : ∀ q, Skeleton base (l.chunks ++ [l.stop]) q → fake[q]? = rom[q]? := by
    intro q hs
    by_cases hlt : q < rom.length
    · exact (hq q hlt).1 ⟨_, hz, hs⟩
    · rw [List.getElem?_eq_none (by omega), List.getElem?_eq_none (by omega)]
  have := sim_writeBank (conv := conv) (v := v) (songs := songs) (first := first) (fs := fs) hl (findChunks_congr (hb base hbase) hl hin (hstop l hin) hsk)
  revert this
  cases writeBank conv v songs rom base first fs <;> cases writeBank conv v songs fake base first fs <;> intro this
  · exact this
  · exact this
  · exact this
  · exact ⟨this.1, this.2.1.trans hl.symm, this.2.2⟩

/-- In the fake ROM, pointers and headers of the banks are those of the ROM. -/
theorem fake_meta {Path : Type} {conv : Converter Path} {js : List (Job Path)} {rom fake : Rom} (h : genFakeRom rom (js.map Job.base) = .ok fake)
    (hr : AllReady conv (ofRom rom) 0 js) : fake.length = rom.length ∧ ∀ j ∈ js, ∀ q, j.bank.Meta j.base q → fake[q]? = rom[q]? := by
  have hall : ∀ {js : List (Job Path)} {fs : Nat}, AllReady conv (ofRom rom) fs js → ∀ j ∈ js, ∃ fs, j.Ready conv (ofRom rom) fs := by
    intro js
    induction js with
    | nil => intro fs _ j hj; cases hj
    | cons i js ih =>
      intro fs h j hj
      rcases List.mem_cons.mp hj with rfl | hj
      · exact ⟨_, h.1⟩
      · exact ih h.2 j hj
  have hb : ∀ base ∈ js.map Job.base, base + 8 < 2 ^ 24 := by
    intro base hm
    obtain ⟨j, hj, rfl⟩ := List.mem_map.mp hm
    obtain ⟨fs, hj⟩ := hall hr j hj
    exact hj.addr
  obtain ⟨hl, ls, hls, hq⟩ := C45_fake rom fake _ hb h
  refine ⟨hl, fun j hj q hm => ?_⟩
  obtain ⟨fs, hready⟩ := hall hr j hj
  obtain ⟨l, hin, hch, -⟩ := bank_listed hready.bank
  obtain ⟨l', hz, hin'⟩ := forall₂_at hls (List.mem_map_of_mem hj)
  cases listed_unique hin hin'.1
  by_cases hlt : q < rom.length
  · exact (hq q hlt).1 ⟨_, hz, by rw [hch]; exact hm⟩
  · rw [List.getElem?_eq_none (by omega), List.getElem?_eq_none (by omega)]

/-- **C72 (ready builds).** The conditions under which builds are known to be right hold for the fake ROM if they hold for the ROM. -/
theorem C72_ready {Path : Type} (conv : Converter Path) (js : List (Job Path)) (rom fake : Rom) (h : genFakeRom rom (js.map Job.base) = .ok fake)
    (hr : AllReady conv (ofRom rom) 0 js) : AllReady conv (ofRom fake) 0 js :=
  allReady_congr hr (fake_meta h hr).2

theorem sameOutcome_banks {Path : Type} {conv : Converter Path} {v : Bool} : ∀ {js : List (Job Path)} {fs : Nat} {rom rom' : Rom},
    rom'.length = rom.length → AllReady conv (ofRom rom) fs js → (∀ j ∈ js, ∀ q, j.bank.Meta j.base q → rom'[q]? = rom[q]?) → HeadersSafe js →
    Sim (Patched rom rom') (writeBanks conv v (js.map Job.args) rom fs) (writeBanks conv v (js.map Job.args) rom' fs) := by
  intro js
  induction js with
  | nil => intro fs rom rom' hl _ _ _; exact ⟨rfl, hl, fun q => .inr ⟨rfl, rfl⟩⟩
  | cons j js ih =>
    intro fs rom rom' hl hr hr' hs
    have hf : findChunks rom' j.base = findChunks rom j.base := by
      obtain ⟨l, hin, hch, hst⟩ := bank_listed hr.1.bank
      refine findChunks_congr hr.1.addr hl hin hst fun q hq => ?_
      rw [hch] at hq
      exact hr' j (List.mem_cons_self ..) q hq
    have h1 := sim_writeBank (conv := conv) (v := v) (songs := j.songs) (first := j.first) (fs := fs) hl hf
    rw [List.map_cons, Job.args, writeBanks, writeBanks]
    cases e : writeBank conv v j.songs rom j.base j.first fs with
    | error x => cases e' : writeBank conv v j.songs rom' j.base j.first fs with
      | error y => rw [e, e'] at h1; exact h1
      | ok y => rw [e, e'] at h1; exact h1.elim
    | ok r => cases e' : writeBank conv v j.songs rom' j.base j.first fs with
      | error y => rw [e, e'] at h1; exact h1.elim
      | ok r' =>
        rw [e, e'] at h1
        obtain ⟨k1, k2, k3⟩ := h1
        have hready' : AllReady conv (ofRom rom') fs (j :: js) := allReady_congr hr hr'
        have next : ∀ {a b : Rom}, AllReady conv (ofRom a) fs (j :: js) → writeBank conv v j.songs a j.base j.first fs = .ok b →
            ∀ k ∈ js, ∀ q, k.bank.Meta k.base q → b[q]? = a[q]? := by
          intro a b ha hb k hk q hq
          obtain ⟨B, hB⟩ := built_of_ok ha.1.addr ha.1.bank ha.1.songs ha.1.fits hb
          refine hB.unchanged ha.1.fits.start fun hd => ?_
          exact hs j (List.mem_cons_self ..) k (List.mem_cons_of_mem _ hk) q hd hq
        refine sim_imp (ih (k2.trans k1.symm) (allReady_congr hr.2 (next hr e)) (fun k hk q hq => ?_)
          fun a ha b hb => hs a (List.mem_cons_of_mem _ ha) b (List.mem_cons_of_mem _ hb)) ?_
        · rw [next hr e k hk q hq, next hready' e' k hk q hq, hr' k (List.mem_cons_of_mem _ hk) q hq]
        rintro a b ⟨m1, m2, m3⟩
        refine ⟨m1.trans k1, m2.trans k1, fun q => ?_⟩
        rcases m3 q with m | ⟨ma, mb⟩
        · exact .inl m
        · rcases k3 q with k | ⟨ka, kb⟩
          · left; rw [ma, mb, k]
          · right; exact ⟨ma.trans ka, mb.trans kb⟩

/-- **C72 (whole build).** A ready build has the same outcome in the fake ROM as in the ROM: the same error (a converter's, say), or the same bytes at the same places. -/
theorem C72_build_partial {Path : Type} (conv : Converter Path) (v : Bool) (js : List (Job Path)) (addrs : List Nat) (rom fake : Rom)
    (haddrs : addrs = js.map Job.base) (hfirst : bankFirstSongAddrs = js.map Job.first) (h : genFakeRom rom addrs = .ok fake)
    (hr : AllReady conv (ofRom rom) 0 js) (hs : HeadersSafe js) :
    SameOutcome rom fake (buildRom conv v (js.map Job.songs) addrs rom) (buildRom conv v (js.map Job.songs) addrs fake) := by
  have hz : (js.map Job.songs).zip (addrs.zip bankFirstSongAddrs) = js.map Job.args := by
    rw [haddrs, hfirst, List.zip_map', List.zip_map']; rfl
  rw [haddrs] at h
  obtain ⟨hl, hm⟩ := fake_meta h hr
  unfold buildRom
  rw [hz]
  have := sameOutcome_banks (v := v) hl hr hm hs
  revert this
  cases writeBanks conv v (js.map Job.args) rom 0 <;> cases writeBanks conv v (js.map Job.args) fake 0 <;> intro this
  · exact this
  · exact this
  · exact this
  · exact ⟨this.1, this.2.1.trans hl.symm, this.2.2⟩

/-- A ROM whose bank has only an end mark, and this names D000; other chunks follow. -/
def markRom : Rom := romPtr 12 ++ [0, 0, 0, 0xd0] ++ romChunk 40 0x2b 0xdd ++ [0, 0, 0, 8]

/-- The condition on the end mark is needed: the chunk search goes on behind an end mark for D000, but the fake ROM has nothing there. This ROM takes an empty song,
its fake does not. -/
theorem C72_mark_false : ∃ fake, genFakeRom markRom [0] = .ok fake ∧
    ¬ SameOutcome markRom fake (writeBank demoConv false [slot none false] markRom 0 0xd000 0) (writeBank demoConv false [slot none false] fake 0 0xd000 0) := by
  refine ⟨(genFakeRom markRom [0]).toOption.getD [], by decide +kernel, ?_⟩
  have h1 : (writeBank demoConv false [slot none false] markRom 0 0xd000 0).toOption.isSome = true := by decide +kernel
  have h2 : (writeBank demoConv false [slot none false] ((genFakeRom markRom [0]).toOption.getD []) 0 0xd000 0).toOption.isSome = false := by decide +kernel
  revert h1 h2
  cases writeBank demoConv false [slot none false] markRom 0 0xd000 0 <;>
    cases writeBank demoConv false [slot none false] ((genFakeRom markRom [0]).toOption.getD []) 0 0xd000 0 <;> intro h1 h2
  · cases h1
  · cases h1
  · exact id
  · cases h2

/-- The bank of the examples: the fake ROM is another image, a song goes to the same place in both, and a song that is too long is refused in both. -/
example : ∃ fake, genFakeRom (oneRom 100 30) [0] = .ok fake ∧ fake[16]? ≠ (oneRom 100 30)[16]? ∧
    (∀ l : Listed, l.In (ofRom (oneRom 100 30)) 0 → l.stop.aram ≠ 0xd000) ∧
    (writeBank demoConv false oneJob.songs fake 0 0xd006 0).toOption.map (fun r => r.take 60 |>.drop 21) =
      (writeBank demoConv false oneJob.songs (oneRom 100 30) 0 0xd006 0).toOption.map (fun r => r.take 60 |>.drop 21) ∧
    (writeBank demoConv false oneJob.songs fake 0 0xd006 0).toOption.isSome = true ∧
    writeBank demoConv false (List.replicate 5 (slot (some 20) false)) fake 0 0xd006 0 = failed .doesNotFit := by
  refine ⟨(genFakeRom (oneRom 100 30) [0]).toOption.getD [], by decide +kernel, by decide +kernel, fun l hl => ?_, by decide +kernel, by decide +kernel, by decide +kernel⟩
  obtain ⟨l', hin, -, hs⟩ := bank_listed oneJob_ready.bank
  cases listed_unique hl hin
  exact hs

attribute [local irreducible] SameOutcome in
/-- The three-bank build of the examples meets the conditions. -/
example : ∃ fake, genFakeRom threeRom [0, 12, 24] = .ok fake ∧ fake ≠ threeRom ∧
    SameOutcome threeRom fake (buildRom demoConv false (threeJobs.map Job.songs) [0, 12, 24] threeRom) (buildRom demoConv false (threeJobs.map Job.songs) [0, 12, 24] fake) := by
  obtain ⟨fake, h, h2⟩ : ∃ fake, genFakeRom threeRom [0, 12, 24] = .ok fake ∧ fake[40]? = some 0 :=
    ⟨(genFakeRom threeRom [0, 12, 24]).toOption.getD [], by decide +kernel, by decide +kernel⟩
  have ha : [0, 12, 24] = threeJobs.map Job.base := rfl
  have hf : bankFirstSongAddrs = threeJobs.map Job.first := rfl
  have hs := C72_build_partial demoConv false threeJobs [0, 12, 24] threeRom fake ha hf h threeJobs_ready threeJobs_safe
  refine ⟨fake, h, ?_, hs⟩
  intro e
  rw [e] at h2
  revert h2
  decide +kernel

end M2S
