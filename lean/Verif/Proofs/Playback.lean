import Verif.Spec.Playback
import Verif.Proofs.Engine
/-
Helper lemmas on playing a whole song from ARAM.
-/
namespace M2S.Engine
open Nspc RomSpec

/-- Without calls, addresses do not matter. -/
theorem intended_addr (a b : Nat → UInt8 × UInt8) (cs : List PCmd) (h : ∀ c ∈ cs, isCall c.command = false) : ∀ (d v s : UInt8),
    intended a cs d v s = intended b cs d v s := by
  induction cs with
  | nil => intros; rfl
  | cons c cs ih =>
    intro d v s
    have hc := h c List.mem_cons_self
    rw [intended_cons, intended_cons, ih (fun c hc => h c (List.mem_cons_of_mem _ hc))]
    congr 1
    cases hcc : c.command <;> simp_all [cmdEv, encodeCmd, isCall]

/-- Timing of the first command onwards does not depend on the initial duration. -/
theorem encodable_dur (addr : Nat → UInt8 × UInt8) (cs : List PCmd) : ∀ (d dur dur' v s : UInt8), Encodable d cs → (Known d → dur = d ∧ dur' = d) →
    (∀ c ∈ cs, isCall c.command = false) → (intended addr cs dur v s).map Ev.timing = (intended addr cs dur' v s).map Ev.timing := by
  intro d dur dur' v s hE hd hc
  induction cs generalizing d dur dur' v s with
  | nil => rfl
  | cons c cs ih =>
    rw [encodable_cons] at hE
    obtain ⟨hh, hE⟩ := hE
    have key : timed c.command = true → (asked c.duration).getD dur = (asked c.duration).getD dur' := by
      intro ht
      obtain ⟨k1, k2⟩ := hh.2.2.2.2 (.inl ht)
      cases ha : asked c.duration with
      | some x => rfl
      | none =>
        rw [ha] at k1 k2
        obtain ⟨e1, e2⟩ := hd ⟨k1, k2⟩
        rw [e1, e2]
    rw [intended_cons, intended_cons, List.map_cons, List.map_cons]
    congr 1
    · exact cmdEv_timing _ _ _ _ _ _ _ _ key
    · refine ih _ _ _ _ _ hE ?_ fun c' hc' => hc c' (List.mem_cons_of_mem _ hc')
      intro hk
      cases hcd : c.duration with
      | some x =>
        rw [hcd] at hk
        have : x ≠ 0 := by rintro rfl; exact not_known_zero hk
        simp [asked, this]
      | none =>
        rw [hcd] at hk
        exact hd hk

theorem preamble_play (addr : Nat → UInt8 × UInt8) (parts : List (List Nat)) (i : Nat) (r : Regs) :
    play noCall ((preambleFor parts i).map (cmdTok addr)) r =
      (preambleFor parts i).map (fun c => .cmd (encodeCmd noAddr c).1 (encodeCmd noAddr c).2) ∧
    finalRegs noCall ((preambleFor parts i).map (cmdTok addr)) r = r := by
  unfold preambleFor
  split_ifs <;> exact ⟨rfl, rfl⟩

theorem preamble_timing (parts : List (List Nat)) (i : Nat) :
    ((preambleFor parts i).map (fun c => Ev.cmd (encodeCmd noAddr c).1 (encodeCmd noAddr c).2)).map Ev.timing =
      (preambleFor parts i).map (fun c => .cmd (encodeCmd noAddr c).1 (encodeCmd noAddr c).2) := by
  unfold preambleFor
  split_ifs <;> rfl

/-- The address bytes of a track. -/
def addrBytes (addr : Nat → Nat) (t : Nat) : UInt8 × UInt8 := (UInt8.ofNat (addr t), UInt8.ofNat (addr t / 256))

theorem addrBytes_word (addr : Nat → Nat) (t : Nat) (h : addr t < 0x10000) : (addrBytes addr t).1.toNat + 256 * (addrBytes addr t).2.toNat = addr t := by
  simp only [addrBytes, UInt8.toNat_ofNat']
  omega

/-- A written track at an address is laid out there as its items. -/
theorem lays_track {a : Mem} {addr : Nat → Nat} {s : Song} {t : Nat} {tr : List PCmd} {o : Out} (ht : s.tracks[t]? = some tr) (hne : tr ≠ [])
    (ho : s.writeTrack t = .ok o) (hE : Encodable 0xff tr) {pos : Nat} (h : TrackAt a addr pos o) :
    ∃ q, Lays a pos ((preambleFor s.parts t).map (cmdTok (addrBytes addr)) ++ encToks (addrBytes addr) tr 0xff none) q ∧ a q = some 0 := by
  obtain ⟨hb, hr⟩ := writeTrack_eq s t tr ht hne o ho
  have hpatch := patch_enc (addrBytes addr) tr ((preambleFor s.parts t).flatMap (cmdBytes placeholder)) [0] 0xff none
  have hpre : (preambleFor s.parts t).flatMap (cmdBytes placeholder) = (preambleFor s.parts t).flatMap (cmdBytes (addrBytes addr)) := by
    unfold preambleFor; split_ifs <;> rfl
  have hp := parse_written (addrBytes addr) s.parts t tr hE []
  rw [List.append_nil, ← hpre, ← hpatch, ← hr, ← hb] at hp
  refine lays_parse _ (fun j hj => ?_) hp
  have hl : ∀ (refs : List CallLoopRef) (bs : List UInt8) (f : Nat → UInt8 × UInt8), (refs.foldl (Nspc.patchOne f) bs).length = bs.length := by
    intro refs
    induction refs with
    | nil => intro bs f; rfl
    | cons x refs ih => intro bs f; rw [List.foldl_cons, ih]; simp [Nspc.patchOne]
  rw [hl] at hj
  exact h j hj

/-- No calls are left after expansion. -/
theorem expand_flat (s : Song) (h : Playable s) (tr : List PCmd) (htr : tr ∈ s.tracks) : ∀ c ∈ expand s.tracks tr, isCall c.command = false := by
  intro c hc
  obtain ⟨b, hb, hc⟩ := List.mem_flatMap.mp hc
  unfold expandCmd at hc
  split at hc
  · rename_i t n hcc
    obtain ⟨-, -, ⟨body, h1, -, h2⟩, -⟩ := h.calls tr htr b hb t n hcc
    rw [List.getD_eq_getElem?_getD, h1] at hc
    simp only [copies, List.mem_flatten, List.mem_replicate, Option.getD_some] at hc
    obtain ⟨l, ⟨-, rfl⟩, hc⟩ := hc
    exact h2 c hc
  · rename_i hcc
    simp only [List.mem_singleton] at hc
    subst hc
    cases hcc' : c.command <;> simp only [isCall]
    exact absurd hcc' (hcc _ _)

/-- One channel: a part track or any other track of a song in ARAM, played from its address. -/
theorem run_track {a : Mem} {T : Nat} {e : Encoded} {addr : Nat → Nat} {s : Song} (hS : SongAt a T e addr) (hP : Playable s)
    (henc : List.Forall₂ (fun i o => s.writeTrack i = .ok o) (List.range s.tracks.length) e.tracks) {t : Nat} {tr : List PCmd} (ht : s.tracks[t]? = some tr)
    (hne : tr ≠ []) (regs : Regs) :
    0x100 ≤ addr t ∧ ∃ n evs sound, (∀ k, run a (n + k) ⟨addr t, regs, none⟩ = some evs) ∧ trackSound s t = some sound ∧
      evs.map Ev.timing = sound.map Ev.timing ∧ ((∀ c ∈ tr, isCall c.command = false) → evs = sound) := by
  have hout : ∀ i tr, s.tracks[i]? = some tr → ∃ o, e.tracks[i]? = some o ∧ s.writeTrack i = .ok o := by
    intro i tr hi
    obtain ⟨hlt, -⟩ := List.getElem?_eq_some_iff.mp hi
    have hlen := henc.length_eq
    rw [List.length_range] at hlen
    have := List.Forall₂.get henc (i := i) (by simpa using hlt) (by omega)
    simp only [List.get_eq_getElem, List.getElem_range] at this
    exact ⟨_, List.getElem?_eq_getElem (by omega), this⟩
  have hat : ∀ i tr, s.tracks[i]? = some tr → tr ≠ [] → 0x100 ≤ addr i ∧
      ∃ q, Lays a (addr i) ((preambleFor s.parts i).map (cmdTok (addrBytes addr)) ++ encToks (addrBytes addr) tr 0xff none) q ∧ a q = some 0 := by
    intro i tr hi hne
    obtain ⟨o, h1, h2⟩ := hout i tr hi
    have h3 := hS.tracks i o h1
    have hb : o.bytes ≠ [] := by
      rw [(writeTrack_eq s i tr hi hne o h2).1]; simp
    rw [if_neg hb] at h3
    exact ⟨h3.1, lays_track hi hne h2 (hP.enc tr (List.mem_of_getElem? hi)) h3.2⟩
  obtain ⟨hpage, q, hl, h0⟩ := hat t tr ht hne
  refine ⟨hpage, ?_⟩
  have hmem := List.mem_of_getElem? ht
  have hflat := expand_flat s hP tr hmem
  have hsound : trackSound s t = some ((preambleFor s.parts t).map (fun c => .cmd (encodeCmd noAddr c).1 (encodeCmd noAddr c).2) ++
      intended noAddr (expand s.tracks tr) 0 13 7) := by
    unfold trackSound
    rw [ht]
    simp [hne]
  rw [lays_append] at hl
  obtain ⟨x, hl1, hl2⟩ := hl
  obtain ⟨pp, pr⟩ := preamble_play (addrBytes addr) s.parts t regs
  have hpc : ∀ y ∈ (preambleFor s.parts t).map (cmdTok (addrBytes addr)), callOf y = none := by
    intro y hy
    obtain ⟨c, hc, rfl⟩ := List.mem_map.mp hy
    exact callOf_cmdTok _ _ (preamble_good s.parts t c hc).2.1
  have r1 := reach_plain _ hpc regs none hl1
  rw [pp, pr] at r1
  by_cases hfl : ∀ c ∈ tr, isCall c.command = false
  · have r2 := reach_plain _ (callOf_enc (addrBytes addr) tr hfl 0xff none) regs none hl2
    rw [play_full (addrBytes addr) noCall tr 0xff none 0 13 7 regs VSRel.init (hP.enc tr hmem) (fun h => absurd h.2 (by decide)) (by simp)
      (fun c hc h => by rw [hfl c hc] at h; cases h)] at r2
    obtain ⟨n, hn⟩ := (r1.trans r2).finish (step_end h0 _)
    have hx : expand s.tracks tr = tr := by
      have : ∀ c ∈ tr, expandCmd s.tracks c = [c] := by
        intro c hc
        unfold expandCmd
        split
        · rename_i hcc; have := hfl c hc; rw [hcc] at this; cases this
        · rfl
      unfold expand
      rw [List.flatMap_congr this]
      simp
    rw [hx, intended_addr noAddr (addrBytes addr) tr hfl] at hsound
    exact ⟨n, _, _, hn, hsound, rfl, fun _ => rfl⟩
  · obtain ⟨evs, r', r2, ht2⟩ := reach_track (m := a) (addr := addrBytes addr) (tracks := s.tracks) tr (by
        intro c hc t' k hcc
        obtain ⟨c1, c2, ⟨body, c3, c4, c5⟩, c6⟩ := hP.calls tr hmem c hc t' k hcc
        refine ⟨c1, c2, ?_⟩
        obtain ⟨-, q', g1, g2⟩ := hat t' body c3 c4
        have hpre : preambleFor s.parts t' = [] := by
          unfold preambleFor
          rw [if_neg, if_neg]
          · simp only [List.any_eq_true, List.contains_iff_mem, not_exists, not_and]
            exact c6
          · simp only [List.any_eq_true, decide_eq_true_eq, not_exists, not_and]
            intro p hp hh
            exact c6 p hp (List.mem_of_mem_head? hh)
        rw [hpre] at g1
        rw [addrBytes_word addr t' (hS.range t'), List.getD_eq_getElem?_getD, c3]
        exact ⟨hP.enc body (List.mem_of_getElem? c3), c5, q', g1, g2⟩)
      0xff none 13 7 0 13 7 regs VSRel.init (hP.enc tr hmem) (fun h => absurd h.2 (by decide)) hl2
    obtain ⟨n, hn⟩ := (r1.trans r2).finish (step_end h0 _)
    refine ⟨n, _, _, hn, hsound, ?_, fun h => absurd h hfl⟩
    rw [List.map_append, List.map_append, ht2, intended_addr (addrBytes addr) noAddr _ hflat]

theorem mapM_exists {α β : Type} {f : Nat → α → Option β} {g : α → β → Prop} (l : List α)
    (h : ∀ x ∈ l, ∃ n y, g x y ∧ ∀ k, f (n + k) x = some y) : ∃ n ys, List.Forall₂ g l ys ∧ ∀ k, l.mapM (f (n + k)) = some ys := by
  induction l with
  | nil => exact ⟨0, [], .nil, fun k => rfl⟩
  | cons x l ih =>
    obtain ⟨n1, y, h1, h2⟩ := h x List.mem_cons_self
    obtain ⟨n2, ys, h3, h4⟩ := ih fun x hx => h x (List.mem_cons_of_mem _ hx)
    refine ⟨n1 + n2, y :: ys, .cons h1 h3, fun k => ?_⟩
    rw [List.mapM_cons, Nat.add_assoc, h2, ← Nat.add_assoc, Nat.add_comm n1 n2, Nat.add_assoc, h4]
    rfl

theorem mapM_some {α β : Type} {f : α → Option β} {g : α → β} (l : List α) (h : ∀ x ∈ l, f x = some (g x)) : l.mapM f = some (l.map g) := by
  induction l with
  | nil => rfl
  | cons x l ih =>
    rw [List.mapM_cons, h x List.mem_cons_self, ih fun x hx => h x (List.mem_cons_of_mem _ hx)]
    rfl

/-- Playing a song that is in ARAM. -/
theorem play_songAt {a : Mem} {number T : Nat} {e : Encoded} {addr : Nat → Nat} {s : Song} (hT : word a (0xd000 + 2 * number) = some T)
    (hS : SongAt a T e addr) (hP : Playable s)
    (henc : List.Forall₂ (fun i o => s.writeTrack i = .ok o) (List.range s.tracks.length) e.tracks) (hpart : ∀ t ∈ e.part, t < s.tracks.length) (regs : Regs) :
    ∃ n evs, (∀ k, playSong a (n + k) regs number = some (evs, T, if e.loops then .goto 0xff T else .stop)) ∧
      timingOf evs = timingOf (partSound s e.part) ∧
      ((∀ tr ∈ s.tracks, ∀ c ∈ tr, isCall c.command = false) → evs = partSound s e.part) := by
  obtain ⟨P, h1, h2, h3⟩ := hS.part
  have hempty : ∀ t, s.tracks[t]? = some [] → addr t = 0 := by
    intro t ht
    obtain ⟨hlt, -⟩ := List.getElem?_eq_some_iff.mp ht
    have hlen := henc.length_eq
    rw [List.length_range] at hlen
    have := List.Forall₂.get henc (i := t) (by simpa using hlt) (by omega)
    simp only [List.get_eq_getElem, List.getElem_range] at this
    have h4 := hS.tracks t _ (List.getElem?_eq_getElem (by omega))
    have hb : (e.tracks[t]'(by omega)).bytes = [] := by
      unfold Song.writeTrack at this
      rw [ht] at this
      simp only [List.isEmpty_nil, if_true] at this
      injection this with this
      rw [← this]
    rw [if_pos hb] at h4
    exact h4
  have hch : channels a P = some ((List.range 8).map fun k => if (e.part[k]?.map addr).getD 0 < 0x100 then none else some ((e.part[k]?.map addr).getD 0)) := by
    unfold channels
    refine mapM_some _ fun k hk => ?_
    rw [h3 k (List.mem_range.mp hk)]
    rfl
  have hrun : ∀ k ∈ List.range 8, ∃ n y, (timingOf [y] = timingOf [e.part[k]?.bind (trackSound s)] ∧
        ((∀ tr ∈ s.tracks, ∀ c ∈ tr, isCall c.command = false) → y = e.part[k]?.bind (trackSound s))) ∧
      ∀ j, playChannel a (n + j) regs (if (e.part[k]?.map addr).getD 0 < 0x100 then none else some ((e.part[k]?.map addr).getD 0)) = some y := by
    intro k _
    cases hk : e.part[k]? with
    | none => exact ⟨0, none, ⟨rfl, fun _ => rfl⟩, fun j => rfl⟩
    | some t =>
      have htl := hpart t (List.mem_of_getElem? hk)
      have ht := List.getElem?_eq_getElem htl
      simp only [Option.map_some, Option.getD_some, Option.bind_some]
      by_cases hne : s.tracks[t] = []
      · rw [hne] at ht
        rw [hempty t ht, if_pos (by omega)]
        have : trackSound s t = none := by unfold trackSound; rw [ht]; simp
        rw [this]
        exact ⟨0, none, ⟨rfl, fun _ => rfl⟩, fun j => rfl⟩
      · obtain ⟨g1, n, evs, sound, g2, g3, g4, g5⟩ := run_track hS hP henc ht hne regs
        rw [if_neg (by omega), g3]
        refine ⟨n, some evs, ⟨?_, fun h => ?_⟩, fun j => ?_⟩
        · simp [timingOf, g4]
        · rw [g5 (h _ (List.getElem_mem htl))]
        · simp only [playChannel, g2, Option.map_some]
  obtain ⟨n, ys, hys, hn⟩ := mapM_exists (f := fun n k => playChannel a n regs (if (e.part[k]?.map addr).getD 0 < 0x100 then none else some ((e.part[k]?.map addr).getD 0)))
    (List.range 8) hrun
  refine ⟨n, ys, fun j => ?_, ?_, fun h => ?_⟩
  · have hT0 : phraseAt a T = some (.part P) := by
      unfold phraseAt
      rw [h1]
      simp only
      rw [if_neg (by omega), if_neg (by omega)]
    have hT2 : phraseAt a (T + 2) = some (if e.loops then .goto 0xff T else .stop) := by
      unfold phraseAt
      have := hS.stop
      cases hl : e.loops with
      | true =>
        rw [if_pos hl] at this
        rw [this.1]
        simp only
        rw [if_neg (by omega), if_pos (by omega), show T + 2 + 2 = T + 4 by omega, this.2.1]
        rfl
      | false =>
        rw [if_neg (by rw [hl]; simp)] at this
        rw [this]
        rfl
    unfold playSong
    rw [hT]
    simp only [hT0, hch, hT2]
    rw [List.mapM_map]
    have := hn j
    simp only [Function.comp_def]
    rw [this]
  · unfold partSound timingOf
    rw [List.map_map]
    have : ∀ {l : List Nat} {ys : List (Option (List Ev))}, List.Forall₂ (fun k y => timingOf [y] = timingOf [e.part[k]?.bind (trackSound s)] ∧
        ((∀ tr ∈ s.tracks, ∀ c ∈ tr, isCall c.command = false) → y = e.part[k]?.bind (trackSound s))) l ys →
        ys.map (Option.map (List.map Ev.timing)) = l.map (Option.map (List.map Ev.timing) ∘ fun k => e.part[k]?.bind (trackSound s)) := by
      intro l ys h
      induction h with
      | nil => rfl
      | cons h _ ih =>
        rw [List.map_cons, List.map_cons, ih]
        congr 1
        have := h.1
        simp only [timingOf, List.map_cons, List.map_nil, List.cons.injEq, and_true] at this
        exact this
    exact this hys
  · unfold partSound
    have : ∀ {l : List Nat} {ys : List (Option (List Ev))}, List.Forall₂ (fun k y => timingOf [y] = timingOf [e.part[k]?.bind (trackSound s)] ∧
        ((∀ tr ∈ s.tracks, ∀ c ∈ tr, isCall c.command = false) → y = e.part[k]?.bind (trackSound s))) l ys →
        ys = l.map fun k => e.part[k]?.bind (trackSound s) := by
      intro l ys h'
      induction h' with
      | nil => rfl
      | cons g _ ih => rw [List.map_cons, ← ih, ← g.2 h]
    exact this hys

end M2S.Engine
