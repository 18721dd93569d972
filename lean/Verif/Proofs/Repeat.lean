import Verif.Spec.Repeat
import Verif.Proofs.Tones
import Verif.Proofs.RealTime
/-
Helper lemmas on songs that are played again and again.
-/
namespace M2S
open Nspc RomSpec Engine MidiSpec Timing

/-! ## The engine -/

theorem runOn_run (m : Mem) : ∀ (n : Nat) (c : Chan) (evs : List Ev), run m n c = some evs → ∃ r, runOn m n c = some (evs, r) := by
  intro n
  induction n with
  | zero => intro c evs h; cases h
  | succ n ih =>
    intro c evs h
    unfold run at h
    unfold runOn
    split at h
    · cases h
    · rename_i e hs
      injection h with h
      subst h
      exact ⟨c.regs, by rw [hs]⟩
    · rename_i e c' hs
      rw [hs]
      cases hr : run m n c' with
      | none => rw [hr] at h; cases h
      | some l =>
        rw [hr] at h
        simp only [Option.map_some, Option.some.injEq] at h
        subst h
        obtain ⟨r, hr⟩ := ih c' l hr
        exact ⟨r, by simp [hr]⟩

theorem runOn_more (m : Mem) : ∀ (n k : Nat) (c : Chan) (x : List Ev × Regs), runOn m n c = some x → runOn m (n + k) c = some x := by
  intro n
  induction n with
  | zero => intro k c x h; cases h
  | succ n ih =>
    intro k c x h
    rw [show n + 1 + k = (n + k) + 1 by omega]
    unfold runOn at h ⊢
    split at h
    · cases h
    · exact h
    · rename_i e c' hs
      cases hr : runOn m n c' with
      | none => rw [hr] at h; cases h
      | some y =>
        rw [hr] at h
        rw [ih k c' y hr]
        exact h

theorem channelOn_of (m : Mem) (fuel : Nat) (regs : Regs) (p : Option Nat) (y : Option (List Ev)) (h : playChannel m fuel regs p = some y) :
    ∃ r, ∀ k, channelOn m (fuel + k) (p, regs) = some (y, r) := by
  cases p with
  | none => exact ⟨regs, fun k => by simp only [playChannel, Option.some.injEq] at h; subst h; rfl⟩
  | some p =>
    simp only [playChannel, Option.map_eq_some_iff] at h
    obtain ⟨evs, h1, rfl⟩ := h
    obtain ⟨r, h2⟩ := runOn_run m fuel _ evs h1
    exact ⟨r, fun k => by simp [channelOn, runOn_more m fuel k _ _ h2]⟩

theorem mapM_get {α β : Type} {f : α → Option β} : ∀ (l : List α) (l' : List β), l.mapM f = some l' → l'.length = l.length ∧ ∀ (i : Nat) (x : α), l[i]? = some x → ∃ y, l'[i]? = some y ∧ f x = some y := by
  intro l
  induction l with
  | nil => intro l' h; simp at h; subst h; simp
  | cons a l ih =>
    intro l' h
    rw [List.mapM_cons] at h
    cases ha : f a with
    | none => rw [ha] at h; simp at h
    | some b =>
      rw [ha] at h
      simp only [Option.bind_eq_bind, Option.bind_some] at h
      cases hl : l.mapM f with
      | none => rw [hl] at h; simp at h
      | some bs =>
        rw [hl] at h
        simp at h
        subst h
        obtain ⟨h1, h2⟩ := ih bs hl
        refine ⟨by simp [h1], fun i x hx => ?_⟩
        cases i with
        | zero => simp at hx; subst hx; exact ⟨b, rfl, ha⟩
        | succ i => simpa using h2 i x (by simpa using hx)

/-- Playing all channels of a part, each from registers of its own. -/
theorem channels_on (m : Mem) (cs : List (Option Nat)) (R : Nat → Option (List Ev) → Prop) :
    ∀ (base : Nat) (regs : List Regs), regs.length = cs.length →
      (∀ i p, cs[i]? = some p → ∀ r : Regs, ∃ fuel y, playChannel m fuel r p = some y ∧ R (base + i) y) →
      ∃ fuel l, (∀ k, (cs.zip regs).mapM (channelOn m (fuel + k)) = some l) ∧ l.length = cs.length ∧ ∀ i y, (l.map Prod.fst)[i]? = some y → R (base + i) y := by
  induction cs with
  | nil => intro base regs _ _; exact ⟨0, [], fun k => by simp, rfl, by simp⟩
  | cons p cs ih =>
    intro base regs hl h
    cases regs with
    | nil => cases hl
    | cons r regs =>
      obtain ⟨fuel, y, h1, h2⟩ := h 0 p rfl r
      obtain ⟨r', h3⟩ := channelOn_of m fuel r p y h1
      obtain ⟨fuel', l, h4, h5, h6⟩ := ih (base + 1) regs (by simpa using hl) (fun i p' hp r => by
        have := h (i + 1) p' (by simpa using hp) r
        rwa [show base + 1 + i = base + (i + 1) by omega])
      refine ⟨fuel + fuel', (y, r') :: l, fun k => ?_, by simp [h5], fun i z hz => ?_⟩
      · rw [List.zip_cons_cons, List.mapM_cons, Nat.add_assoc, h3, ← Nat.add_assoc, Nat.add_comm fuel fuel', Nat.add_assoc, h4]
        rfl
      · cases i with
        | zero => simp at hz; subst hz; exact h2
        | succ i =>
          have := h6 i z (by simpa using hz)
          rwa [show base + 1 + i = base + (i + 1) by omega] at this

/-- A song that can be played from any registers can be played on from any registers of its channels: for a looping song any number of parts, else one. -/
theorem playOn_passes (m : Mem) (number T : Nat) (next : Phrase) (R : Nat → Option (List Ev) → Prop)
    (h : ∀ r : Regs, ∃ fuel evs, playSong m fuel r number = some (evs, T, next) ∧ evs.length = 8 ∧ ∀ i y, evs[i]? = some y → R i y) :
    (next = .goto 0xff T → ∀ (n : Nat) (regs : List Regs), regs.length = 8 → ∃ fuel ps, (∀ k, playOn m (fuel + k) (2 * n) T regs = some ps) ∧ ps.length = n ∧
      ∀ p ∈ ps, p.length = 8 ∧ ∀ i y, p[i]? = some y → R i y) ∧
    (next = .stop → ∀ regs : List Regs, regs.length = 8 → ∃ fuel p, (∀ k n, playOn m (fuel + k) (n + 2) T regs = some [p]) ∧ p.length = 8 ∧ ∀ i y, p[i]? = some y → R i y) := by
  -- what the song table and the part list say
  obtain ⟨P, cs, hph, hch, hnx, hlen, hrun⟩ : ∃ P cs, phraseAt m T = some (.part P) ∧ channels m P = some cs ∧ phraseAt m (T + 2) = some next ∧ cs.length = 8 ∧
      ∀ i p, cs[i]? = some p → ∀ r : Regs, ∃ fuel y, playChannel m fuel r p = some y ∧ R (0 + i) y := by
    have hun : ∀ r fuel evs, playSong m fuel r number = some (evs, T, next) → ∃ P cs, phraseAt m T = some (.part P) ∧ channels m P = some cs ∧ phraseAt m (T + 2) = some next ∧
        cs.mapM (playChannel m fuel r) = some evs := by
      intro r fuel evs he
      unfold playSong at he
      split at he
      · cases he
      · rename_i T' hT'
        split at he
        · rename_i P hP
          split at he
          · cases he
          · rename_i cs hcs
            split at he
            · rename_i evs' nx h1 h2
              simp only [Option.some.injEq, Prod.mk.injEq] at he
              obtain ⟨rfl, rfl, rfl⟩ := he
              exact ⟨P, cs, hP, hcs, h2, h1⟩
            · cases he
        · cases he
    obtain ⟨fuel, evs, e1, e2, e3⟩ := h ⟨0, 0, 0⟩
    obtain ⟨P, cs, a1, a2, a3, a4⟩ := hun _ _ _ e1
    refine ⟨P, cs, a1, a2, a3, ?_, ?_⟩
    · rw [← (mapM_get _ _ a4).1]; exact e2
    · intro i p hp r
      obtain ⟨fuel, evs, e1, e2, e3⟩ := h r
      obtain ⟨P', cs', b1, b2, b3, b4⟩ := hun _ _ _ e1
      rw [a1] at b1
      injection b1 with b1
      injection b1 with b1
      subst b1
      rw [a2] at b2
      injection b2 with b2
      subst b2
      obtain ⟨y, hy, hy'⟩ := (mapM_get _ _ b4).2 i p hp
      exact ⟨fuel, y, hy', by rw [Nat.zero_add]; exact e3 i y hy⟩
  refine ⟨?_, ?_⟩
  · rintro rfl n
    induction n with
    | zero => intro regs _; exact ⟨0, [], fun k => rfl, rfl, by simp⟩
    | succ n ih =>
      intro regs hregs
      obtain ⟨fuel, l, h1, h2, h3⟩ := channels_on m cs R 0 regs (by omega) hrun
      obtain ⟨fuel', ps, g1, g2, g3⟩ := ih (l.map Prod.snd) (by simp; omega)
      refine ⟨fuel + fuel', l.map Prod.fst :: ps, fun k => ?_, by simp [g2], ?_⟩
      · rw [show 2 * (n + 1) = 2 * n + 1 + 1 by omega]
        unfold playOn
        simp only [hph, hch]
        rw [show fuel + fuel' + k = fuel + (fuel' + k) by omega, h1]
        simp only
        unfold playOn
        simp only [hnx]
        rw [show fuel + (fuel' + k) = fuel' + (fuel + k) by omega, if_pos (by omega), g1]
        rfl
      · intro p hp
        rcases List.mem_cons.1 hp with rfl | hp
        · exact ⟨by simp; omega, fun i y hy => by have := h3 i y hy; rwa [Nat.zero_add] at this⟩
        · exact g3 p hp
  · rintro rfl regs hregs
    obtain ⟨fuel, l, h1, h2, h3⟩ := channels_on m cs R 0 regs (by omega) hrun
    refine ⟨fuel, l.map Prod.fst, fun k n => ?_, by simp; omega, fun i y hy => by have := h3 i y hy; rwa [Nat.zero_add] at this⟩
    unfold playOn
    simp only [hph, hch, h1]
    unfold playOn
    simp only [hnx]
    rfl

/-! ## Hearing again -/

/-- There is no tie before the first note. -/
def leadFree : List Ev → Bool
  | [] => true
  | .note _ _ _ _ :: _ => true
  | .perc _ _ _ _ :: _ => true
  | .tie _ :: _ => false
  | .rest _ :: l => leadFree l
  | .cmd _ _ :: l => leadFree l

/-- Settings made after others. -/
def settingsOver (s x : Settings) : Settings := (x.1.or s.1, x.2.or s.2)

theorem setByOp_over (s x : Settings) (op : UInt8) (args : List UInt8) : setByOp (settingsOver s x) op args = settingsOver s (setByOp x op args) := by
  unfold setByOp
  split <;> rfl

/-- A tone heard later and after other settings. -/
def Tone.again (t : Nat) (s : Settings) (x : Tone) : Tone := { x.later t with sound := { (x.later t).sound with settings := settingsOver s x.sound.settings } }

theorem hear_again (t : Nat) (s : Settings) (acc : List Tone) (l : List Ev) : ∀ (t0 : Nat) (x : Settings) (ts : List Tone), ts ≠ [] ∨ leadFree l = true →
    l.foldl hear (t0 + t, settingsOver s x, ts.map (Tone.again t s) ++ acc) =
      ((l.foldl hear (t0, x, ts)).1 + t, settingsOver s (l.foldl hear (t0, x, ts)).2.1, (l.foldl hear (t0, x, ts)).2.2.map (Tone.again t s) ++ acc) := by
  induction l with
  | nil => intro t0 x ts _; rfl
  | cons e l ih =>
    intro t0 x ts h
    cases e with
    | note p d v u =>
      have := ih (t0 + d.toNat) x (⟨⟨t0, p, v, x⟩, t0, t0 + d.toNat, u⟩ :: ts) (.inl (by simp))
      rw [List.foldl_cons, List.foldl_cons]
      simp only [hear]
      rw [← this]
      simp [Tone.again, Tone.later, Nat.add_right_comm]
    | perc p d v u =>
      have := ih (t0 + d.toNat) x (⟨⟨t0, p, v, x⟩, t0, t0 + d.toNat, u⟩ :: ts) (.inl (by simp))
      rw [List.foldl_cons, List.foldl_cons]
      simp only [hear]
      rw [← this]
      simp [Tone.again, Tone.later, Nat.add_right_comm]
    | tie d =>
      rcases ts with _ | ⟨y, ts⟩
      · simp [leadFree] at h
      · have := ih (t0 + d.toNat) x ({ y with last := t0, stop := t0 + d.toNat } :: ts) (.inl (by simp))
        rw [List.foldl_cons, List.foldl_cons]
        simp only [hear, List.map_cons, List.cons_append]
        rw [← this]
        simp [Tone.again, Tone.later, Nat.add_right_comm]
    | rest d =>
      have := ih (t0 + d.toNat) x ts (h.imp id fun h => by simpa [leadFree] using h)
      rw [List.foldl_cons, List.foldl_cons]
      simp only [hear]
      rw [← this, Nat.add_right_comm]
    | cmd op args =>
      have := ih t0 (setByOp x op args) ts (h.imp id fun h => by simpa [leadFree] using h)
      rw [List.foldl_cons, List.foldl_cons]
      simp only [hear]
      rw [← this, setByOp_over]

theorem hear_time (l : List Ev) : ∀ t s ts, (l.foldl hear (t, s, ts)).1 = t + heardTime l := by
  induction l with
  | nil => intro t s ts; rfl
  | cons e l ih =>
    intro t s ts
    cases e with
    | tie d => cases ts <;> (rw [List.foldl_cons]; simp only [hear, ih, heardTime, Nat.add_assoc])
    | _ => rw [List.foldl_cons]; simp only [hear, ih, heardTime, Nat.add_assoc]

/-- Every note has an instrument and a volume. -/
def AllSet (l : List Tone) : Prop := ∀ x ∈ l, x.sound.settings.1 ≠ none ∧ x.sound.settings.2 ≠ none

theorem again_set (t : Nat) (s : Settings) (x : Tone) (h1 : x.sound.settings.1 ≠ none) (h2 : x.sound.settings.2 ≠ none) : Tone.again t s x = x.later t := by
  obtain ⟨⟨a, b, c, d1, d2⟩, e, f, g⟩ := x
  cases d1 with
  | none => exact absurd rfl h1
  | some d1 => cases d2 with
    | none => exact absurd rfl h2
    | some d2 => rfl

/-- Passes of the same length, without ties at their starts and with all settings made, are heard one after the other. -/
theorem tones_over (u : Nat) : ∀ (ls : List (List Ev)) (k : Nat) (s : Settings) (acc : List Tone),
    (∀ l ∈ ls, leadFree l = true ∧ heardTime l = u ∧ AllSet (heardTones l)) →
    (ls.flatten.foldl hear (k * u, s, acc)).2.2.reverse = acc.reverse ++ laterPasses u k (ls.map heardTones) := by
  intro ls
  induction ls with
  | nil => intro k s acc _; simp [laterPasses]
  | cons l ls ih =>
    intro k s acc h
    obtain ⟨h1, h2, h3⟩ := h l List.mem_cons_self
    rw [List.flatten_cons, List.foldl_append]
    have e := hear_again (k * u) s acc l 0 (none, none) [] (.inr h1)
    rw [Nat.zero_add, List.map_nil, List.nil_append, show settingsOver s (none, none) = s from rfl] at e
    rw [e, hear_time, h2, Nat.zero_add, show u + k * u = (k + 1) * u by rw [Nat.add_mul, Nat.one_mul, Nat.add_comm], ih _ _ _ fun l hl => h l (List.mem_cons_of_mem _ hl)]
    rw [List.reverse_append, List.append_assoc, List.map_cons, laterPasses, ← List.map_reverse]
    have : (l.foldl hear (0, (none, none), [])).2.2.reverse = heardTones l := rfl
    rw [this]
    have e2 : (heardTones l).map (Tone.again (k * u) s) = (heardTones l).map (·.later (k * u)) := List.map_congr_left fun x hx => again_set _ _ x (h3 x hx).1 (h3 x hx).2
    rw [e2]

/-! ## Converted voices -/

theorem leadFree_timing (l : List Ev) : leadFree (l.map Ev.timing) = leadFree l := by
  induction l with
  | nil => rfl
  | cons e l ih => cases e <;> first | rfl | exact ih

theorem leadFree_cmds (cs : List Command) (l : List Ev) : leadFree (cs.map (fun c => Ev.cmd (encodeCmd noAddr c).1 (encodeCmd noAddr c).2) ++ l) = leadFree l := by
  induction cs with
  | nil => rfl
  | cons c cs ih => exact ih

theorem leadFree_fused (addr : Nat → UInt8 × UInt8) {a b : List PCmd} (h : Fused a b) : grouped false a → ∀ d v s, leadFree (intended addr b d v s) = true := by
  induction h with
  | nil => intro _ d v s; rfl
  | keep c _ ih =>
    intro hg d v s
    obtain ⟨cd, cv, cs, cmd⟩ := c
    cases cmd <;> first | rfl | exact absurd hg.1 Bool.false_ne_true | exact ih hg.2 _ _ _
  | fuse => intros; rfl

theorem cmds_timing (cs : List Command) : ∀ (l : List Ev) (y : List Ev),
    l.map Ev.timing = cs.map (fun c => Ev.cmd (encodeCmd noAddr c).1 (encodeCmd noAddr c).2) ++ y → ∃ x, l = cs.map (fun c => Ev.cmd (encodeCmd noAddr c).1 (encodeCmd noAddr c).2) ++ x := by
  induction cs with
  | nil => intro l y _; exact ⟨l, rfl⟩
  | cons c cs ih =>
    intro l y h
    cases l with
    | nil => cases h
    | cons e l =>
      rw [List.map_cons, List.map_cons, List.cons_append, List.cons.injEq] at h
      obtain ⟨x, hx⟩ := ih l y h.2
      refine ⟨x, ?_⟩
      rw [List.map_cons, List.cons_append, ← hx]
      congr 1
      cases e with
      | cmd op args => exact h.1
      | _ => exact absurd h.1 (by simp [Ev.timing])

theorem heardSounds_volume (l : List Ev) : ∀ t (s : Settings), s.2 ≠ none → ∀ x ∈ heardSounds t s l, x.settings.2 ≠ none := by
  induction l with
  | nil => intro t s _ x hx; cases hx
  | cons e l ih =>
    intro t s hs x hx
    cases e with
    | note p d v u =>
      rcases List.mem_cons.1 hx with rfl | hx
      · exact hs
      · exact ih _ _ hs x hx
    | perc p d v u =>
      rcases List.mem_cons.1 hx with rfl | hx
      · exact hs
      · exact ih _ _ hs x hx
    | tie d => exact ih _ _ hs x hx
    | rest d => exact ih _ _ hs x hx
    | cmd op args =>
      refine ih _ _ ?_ x hx
      unfold setByOp
      split
      · exact hs
      · simp
      · exact hs

/-- A channel that plays a preamble has a volume at every note. -/
theorem preamble_volume (parts : List (List Nat)) (i : Nat) (hi : (parts.any fun p => p.contains i) = true) (l : List Ev) (y : List Ev)
    (hl : l.map Ev.timing = (preambleFor parts i).map (fun c => Ev.cmd (encodeCmd noAddr c).1 (encodeCmd noAddr c).2) ++ y) : ∀ x ∈ heardTones l, x.sound.settings.2 ≠ none := by
  intro x hx
  obtain ⟨z, hz⟩ := cmds_timing _ l y hl
  have hm : x.sound ∈ heardSounds 0 (none, none) l := by rw [← heardTones_sounds]; exact List.mem_map_of_mem hx
  rw [hz] at hm
  have : heardSounds 0 (none, none) ((preambleFor parts i).map (fun c => Ev.cmd (encodeCmd noAddr c).1 (encodeCmd noAddr c).2) ++ z) = heardSounds 0 (none, some 200) z := by
    unfold preambleFor
    rw [if_pos hi]
    split <;> rfl
  rw [this] at hm
  exact heardSounds_volume z 0 _ (by simp) _ hm

/-- A converted voice has no tie before its first note. -/
theorem converted_leadFree (evs : List TMsg) (tpb G T : Nat) (f : F32) (hp : 0 < tpb) (hp2 : tpb < 65536) (hG : G + 3525 ≤ exactTicks tpb)
    (hT : T < 2 ^ 31) (hv : voiceOk tpb G T 0 0 none evs = true) (hno : noPortamento evs = true)
    (cs : List PCmd) (h : trackNew evs tpb T f = .ok cs) (pre : List Command) (l l' : List Ev)
    (hl : l = pre.map (fun c => Ev.cmd (encodeCmd noAddr c).1 (encodeCmd noAddr c).2) ++ intended noAddr cs 0 13 7) (htm : l'.map Ev.timing = l.map Ev.timing) : leadFree l' = true := by
  obtain ⟨st, cs0, cs', g1, g2, g3, g4, g5, g6⟩ := trackNew_state evs tpb G T f hp hp2 hG hT hv
  rw [h] at g3
  injection g3 with g3
  subst g3
  have hgr := grouped_finish tpb T st cs0 (grouped_loop tpb f evs {} st ⟨rfl, by simp⟩ hno trivial g1) g2
  rw [← leadFree_timing, htm, leadFree_timing, hl, leadFree_cmds]
  exact leadFree_fused _ g4 hgr _ _ _

/-! ## All channels -/

theorem laterPasses_perm (u : Nat) {a b : List (List Tone)} (h : List.Forall₂ List.Perm a b) : ∀ k, (laterPasses u k a).Perm (laterPasses u k b) := by
  induction h with
  | nil => intro k; exact .refl _
  | cons h1 _ ih => intro k; exact (h1.map _).append (ih _)

theorem laterPasses_nil {α : Type} (u : Nat) (ps : List α) : ∀ k, laterPasses u k (ps.map fun _ => []) = [] := by
  induction ps with
  | nil => intro k; rfl
  | cons p ps ih => intro k; exact ih (k + 1)

theorem laterPasses_flatMap {α β : Type} (u : Nat) (ix : List α) (g : β → α → List Tone) (ps : List β) :
    ∀ k, (ix.flatMap fun i => laterPasses u k (ps.map fun p => g p i)).Perm (laterPasses u k (ps.map fun p => ix.flatMap (g p))) := by
  induction ps with
  | nil => intro k; simp [laterPasses]
  | cons p ps ih =>
    intro k
    simp only [List.map_cons, laterPasses]
    refine (List.flatMap_append_perm ix _ _).symm.trans (List.Perm.append ?_ (ih (k + 1)))
    rw [List.map_flatMap]

/-- The tones of channel `i`. -/
def tonesAt (p : List (Option (List Ev))) (i : Nat) : List Tone := ((p[i]?.join).map heardTones).getD []

theorem channelOver_tones (u : Nat) (ps : List (List (Option (List Ev)))) (i : Nat)
    (h : (∀ p ∈ ps, p[i]?.join = none) ∨ ∀ p ∈ ps, ∃ l, p[i]?.join = some l ∧ leadFree l = true ∧ heardTime l = u ∧ AllSet (heardTones l)) :
    ((channelOver ps i).map heardTones).getD [] = laterPasses u 0 (ps.map fun p => tonesAt p i) := by
  rcases h with h | h
  · have h1 : (ps.map fun p => tonesAt p i) = ps.map fun _ => [] := List.map_congr_left fun p hp => by unfold tonesAt; rw [h p hp]; rfl
    rw [h1, laterPasses_nil]
    unfold channelOver
    rw [if_neg]
    · rfl
    · simp only [List.any_eq_true, not_exists, not_and]
      intro p hp
      rw [h p hp]
      simp
  · by_cases hps : ps = []
    · subst hps; rfl
    · unfold channelOver
      have hany : (ps.any fun p => (p[i]?.join).isSome) = true := by
        obtain ⟨p, hp⟩ := List.exists_mem_of_ne_nil ps hps
        obtain ⟨l, hl, -⟩ := h p hp
        exact List.any_eq_true.2 ⟨p, hp, by rw [hl]; rfl⟩
      rw [if_pos hany]
      simp only [Option.map_some, Option.getD_some]
      have key := tones_over u (ps.map fun p => (p[i]?.join).getD []) 0 (none, none) [] (by
        intro l hl
        obtain ⟨p, hp, rfl⟩ := List.mem_map.1 hl
        obtain ⟨l, hl, h1⟩ := h p hp
        rw [hl]
        exact h1)
      rw [Nat.zero_mul, List.reverse_nil, List.nil_append] at key
      rw [List.flatMap_def]
      unfold heardTones at key ⊢
      rw [key, List.map_map]
      congr 1
      refine List.map_congr_left fun p hp => ?_
      obtain ⟨l, hl, -⟩ := h p hp
      show heardTones ((p[i]?.join).getD []) = tonesAt p i
      unfold tonesAt
      rw [hl]
      rfl

theorem tonesIn_at (p : List (Option (List Ev))) (h : p.length = 8) : (p.flatMap fun c => (c.map heardTones).getD []) = (List.range 8).flatMap (tonesAt p) := by
  rw [← h, List.flatMap_def, List.flatMap_def]
  congr 1
  refine List.ext_getElem (by simp) fun i h1 h2 => ?_
  simp only [List.length_map] at h1
  simp [tonesAt, List.getElem?_eq_getElem h1]

/-! ## Tempos -/

theorem heardChanges_append (a b : List Ev) : ∀ t, heardChanges t (a ++ b) = heardChanges t a ++ heardChanges (t + heardTime a) b := by
  induction a with
  | nil => intro t; rfl
  | cons e a ih => intro t; cases e <;> simp [heardChanges, heardTime, ih, Nat.add_assoc]

theorem heardChanges_later (l : List Ev) : ∀ t d, heardChanges (t + d) l = (heardChanges t l).map fun x => (x.1 + d, x.2) := by
  induction l with
  | nil => intro t d; rfl
  | cons e l ih =>
    intro t d
    cases e with
    | cmd op args =>
      simp only [heardChanges, ih, List.map_append]
      split <;> rfl
    | _ => simp only [heardChanges]; rw [Nat.add_right_comm, ih]

theorem heardChanges_until (l : List Ev) : ∀ t, ∀ x ∈ heardChanges t l, x.1 ≤ t + heardTime l := by
  induction l with
  | nil => intro t x hx; cases hx
  | cons e l ih =>
    intro t x hx
    cases e with
    | cmd op args =>
      simp only [heardChanges, List.mem_append] at hx
      rcases hx with hx | hx
      · split at hx
        · simp only [List.mem_singleton] at hx; subst hx; exact Nat.le_add_right _ _
        · cases hx
      · exact ih t x hx
    | _ => have := ih _ x hx; simp only [heardTime]; omega

/-- A list of changes `n` times, from pass `k` on. -/
def passesFrom {α : Type} (u : Nat) (cs : List (Nat × α)) : Nat → Nat → List (Nat × α)
  | _, 0 => []
  | k, n + 1 => (cs.map fun x => (x.1 + k * u, x.2)) ++ passesFrom u cs (k + 1) n

theorem heardTempos_over (u : Nat) (cs : List (Nat × Nat)) (ls : List (List Ev)) (h : ∀ l ∈ ls, heardTime l = u ∧ heardTempos l = cs) : ∀ k,
    ((heardChanges (k * u) ls.flatten).filterMap fun c => if c.2.1 = 0xe7 then c.2.2.head?.map fun b => (c.1, b.toNat) else none) = passesFrom u cs k ls.length := by
  induction ls with
  | nil => intro k; rfl
  | cons l ls ih =>
    intro k
    obtain ⟨h1, h2⟩ := h l List.mem_cons_self
    rw [List.flatten_cons, heardChanges_append, List.filterMap_append, h1, show k * u + u = (k + 1) * u by rw [Nat.add_mul, Nat.one_mul], ih fun l hl => h l (List.mem_cons_of_mem _ hl)]
    rw [List.length_cons, passesFrom]
    congr 1
    have e := heardChanges_later l 0 (k * u)
    rw [Nat.zero_add] at e
    rw [e, ← h2]
    unfold heardTempos
    rw [List.filterMap_map, List.map_filterMap]
    refine List.filterMap_congr fun x _ => ?_
    simp only [Function.comp]
    split
    · cases x.2.2.head? <;> rfl
    · rfl

/-- The last change at a time. -/
def lastAt {α : Type} (t : Nat) (cs : List (Nat × α)) : Option α := (cs.filter fun c => c.1 = t).getLast?.map Prod.snd

theorem lastAt_append {α : Type} (t : Nat) (a b : List (Nat × α)) : lastAt t (a ++ b) = (lastAt t b).or (lastAt t a) := by
  unfold lastAt
  rw [List.filter_append, List.getLast?_append]
  cases (List.filter (fun c => decide (c.1 = t)) b).getLast? <;> rfl

theorem lastAt_none {α : Type} (t : Nat) (cs : List (Nat × α)) (h : ∀ x ∈ cs, x.1 ≠ t) : lastAt t cs = none := by
  unfold lastAt
  rw [List.filter_eq_nil_iff.2 (by simpa using h)]
  rfl

theorem lastAt_later {α : Type} (t d : Nat) (cs : List (Nat × α)) : lastAt (t + d) (cs.map fun x => (x.1 + d, x.2)) = lastAt t cs := by
  unfold lastAt
  rw [List.filter_map, List.getLast?_map, Option.map_map]
  have : ((fun c : Nat × α => decide (c.1 = t + d)) ∘ fun x : Nat × α => (x.1 + d, x.2)) = fun c => decide (c.1 = t) := by
    funext x
    simp
  rw [this]
  rfl

theorem passesFrom_ge {α : Type} (u : Nat) (cs : List (Nat × α)) (n : Nat) : ∀ k, ∀ x ∈ passesFrom u cs k n, k * u ≤ x.1 := by
  induction n with
  | zero => intro k x hx; cases hx
  | succ n ih =>
    intro k x hx
    rcases List.mem_append.1 hx with hx | hx
    · obtain ⟨y, -, rfl⟩ := List.mem_map.1 hx
      exact Nat.le_add_left _ _
    · have := ih (k + 1) x hx
      rw [Nat.add_mul] at this
      omega

theorem lastAt_passes {α : Type} (u : Nat) (cs : List (Nat × α)) (hle : ∀ x ∈ cs, x.1 ≤ u) (h0 : lastAt 0 cs ≠ none) (n : Nat) : ∀ (k0 k j : Nat), k0 ≤ k → k < k0 + n → j < u →
    lastAt (j + k * u) (passesFrom u cs k0 n) = lastAt j cs := by
  induction n with
  | zero => intro k0 k j h1 h2; omega
  | succ n ih =>
    intro k0 k j h1 h2 hj
    rw [passesFrom, lastAt_append]
    by_cases hk : k = k0
    · subst hk
      rw [lastAt_later, lastAt_none _ (passesFrom u cs (k + 1) n)]
      · rfl
      · intro x hx he
        have := passesFrom_ge u cs n (k + 1) x hx
        rw [Nat.add_mul] at this
        omega
    · rw [ih (k0 + 1) k j (by omega) (by omega) hj]
      by_cases h : j = 0
      · subst h
        cases hl : lastAt 0 cs with
        | none => exact absurd hl h0
        | some b => rfl
      · rw [lastAt_none _ (cs.map _)]
        · cases lastAt j cs <;> rfl
        · intro x hx he
          obtain ⟨y, hy, rfl⟩ := List.mem_map.1 hx
          have h3 := hle y hy
          have h4 : (k0 + 1) * u ≤ k * u := Nat.mul_le_mul_right u (by omega)
          rw [Nat.add_mul] at h4
          simp only at he
          omega

theorem inForce_at {α : Type} (start b : α) (cs : List (Nat × α)) (t : Nat) (h : lastAt t cs = some b) : inForce start cs t = b := by
  unfold lastAt at h
  cases t <;> (unfold inForce; rw [h]; rfl)

/-- What is in force in a later pass is what is in force in the first, if it is set at the start. -/
theorem inForce_passes {α : Type} (start start' : α) (u : Nat) (cs : List (Nat × α)) (hle : ∀ x ∈ cs, x.1 ≤ u) (h0 : lastAt 0 cs ≠ none) (n k : Nat) (hk : k < n) : ∀ j, j < u →
    inForce start (passesFrom u cs 0 n) (j + k * u) = inForce start' cs j := by
  intro j
  induction j with
  | zero =>
    intro hj
    obtain ⟨b, hb⟩ := Option.ne_none_iff_exists'.1 h0
    rw [inForce_at start' b cs 0 hb]
    exact inForce_at _ b _ _ (by rw [lastAt_passes u cs hle h0 n 0 k 0 (by omega) (by omega) hj, hb])
  | succ j ih =>
    intro hj
    have e := lastAt_passes u cs hle h0 n 0 k (j + 1) (by omega) (by omega) hj
    rw [show j + 1 + k * u = (j + k * u) + 1 by omega] at e ⊢
    unfold inForce
    unfold lastAt at e
    rw [e, ih (by omega)]

end M2S
