import Verif.Spec.Changes
import Verif.Proofs.TrackNew
import Verif.Proofs.Sustain
import Verif.Proofs.MidiPlayable
/-
When instrument, volume and tempo changes happen.
-/
namespace M2S
open Timing

theorem onsets_append (a b : List PCmd) (t : Nat) : onsets t (a ++ b) = onsets t a ++ onsets (t + total a) b := by
  induction a generalizing t with
  | nil => simp [onsets, total]
  | cons c a ih => rw [List.cons_append, onsets, ih, onsets, total_cons, List.append_assoc, Nat.add_assoc]

theorem changeOnsets_append (a b : List PCmd) : changeOnsets (a ++ b) = changeOnsets a ++ (onsets (total a) b).filter fun x => isChange x.2 := by
  unfold changeOnsets
  rw [onsets_append, List.filter_append, Nat.zero_add]

theorem onsets_quiet (b : List PCmd) (h : ∀ c ∈ b, isChange c.command = false) (t : Nat) : (onsets t b).filter (fun x => isChange x.2) = [] := by
  induction b generalizing t with
  | nil => rfl
  | cons c b ih =>
    rw [onsets, List.filter_append, ih (fun x hx => h x (by simp [hx]))]
    have := h c (by simp)
    split_ifs <;> simp [this]

theorem changeOnsets_quiet (a b : List PCmd) (h : ∀ c ∈ b, isChange c.command = false) : changeOnsets (a ++ b) = changeOnsets a := by
  rw [changeOnsets_append, onsets_quiet b h, List.append_nil]

theorem changeOnsets_plain (a : List PCmd) (c : Command) (h : isChange c = true) : changeOnsets (a ++ [plainCmd c]) = changeOnsets a ++ [(total a, c)] := by
  rw [changeOnsets_append]
  have : c ≠ .rest := by rintro rfl; simp [isChange] at h
  simp [onsets, plainCmd, this, h]

theorem restsOf_noChange (d : Duration) : ∀ c ∈ restsOf d, isChange c.command = false := by
  intro c hc
  unfold restsOf at hc
  rw [List.mem_append] at hc
  rcases hc with hc | hc
  · rw [List.eq_of_mem_replicate hc]; rfl
  · split_ifs at hc
    · simp only [List.mem_singleton] at hc; subst hc; rfl
    · simp at hc

theorem slides_noChange (sl : List PCmd) (h : ∀ c ∈ sl, c.isSlide = true) : ∀ c ∈ sl, isChange c.command = false := by
  intro c hc
  have := h c hc
  obtain ⟨d, v, s, cmd⟩ := c
  cases cmd <;> simp_all [PCmd.isSlide, isChange]

theorem group_noChange (cmd : Command) (h : isChange cmd = false) (v : UInt8) (d : Duration) : ∀ c ∈ noteGroup cmd v d, isChange c.command = false := by
  intro c hc
  unfold noteGroup at hc
  rw [List.mem_cons] at hc
  rcases hc with rfl | hc
  · exact h
  · simp only [noteTies, List.mem_map] at hc
    obtain ⟨i, -, rfl⟩ := hc
    rfl

theorem program_instr (p : Nat) (st : TrackState) (ch : Fin 16) (pr : UInt8) (t : Nat) (hpr : pr.toNat ≤ 127) (rs : List PCmd) (e' : Nat)
    (hr : insertRest st.commands st.lastNoteEnd t p = .ok (st.commands ++ rs, e')) :
    trackProgram p st ch pr t = .ok { st with
        commands := st.commands ++ rs ++ [plainCmd (.setInstrument (instrumentFor ch pr))], lastNoteEnd := e' } := by
  unfold trackProgram instrumentFor
  simp only [hr, bind, Except.bind]
  split_ifs with h9
  · rfl
  · have : pr.toNat < Instr.instrumentMap.length := by rw [instrumentMap_length]; omega
    simp only [List.getElem?_eq_getElem this, List.getD_eq_getElem?_getD, Option.getD_some]
    rfl

theorem usec_bigEndian (data : List UInt8) (h : 3 ≤ data.length) : usecPerBeat data = .ok (bigEndian (data.take 3)) := by
  match data, h with
  | a :: b :: c :: _, _ =>
    simp only [usecPerBeat, bigEndian, List.take_succ_cons, List.take_zero, List.foldl_cons, List.foldl_nil]
    congr 1
    omega

theorem sinceAfter_eq (adv : Nat) (o : Option Nat) (ev : Message × Nat) : sinceAfter adv o.isSome ev = advAfter adv o ev := by
  obtain ⟨m, t⟩ := ev
  rcases m with ⟨dl, e, data⟩ | ⟨dl, e⟩ | ⟨dl, data⟩ | _ <;> try rfl
  cases e <;> rfl

theorem soundingAfter_eq (o : Option Nat) (ev : Message × Nat) : soundingAfter o.isSome ev = (openAfter o ev).isSome := by
  obtain ⟨m, t⟩ := ev
  rcases m with ⟨dl, e, data⟩ | ⟨dl, e⟩ | ⟨dl, data⟩ | _ <;> try rfl
  cases e <;> rfl

/-- The clock is at the latest boundary. -/
structure Bound (p adv : Nat) (st : TrackState) : Prop where
  hi : 24 * st.lastNoteEnd < 24 * adv + p
  lo : 24 * adv < 24 * st.lastNoteEnd + p + slack p

theorem placed_mono (p k k' : Nat) (h : k ≤ k') (o : Nat × Command) (c : Change) (hp : MadeNear p k o c) : MadeNear p k' o c :=
  ⟨hp.1, by have := hp.2.1; omega, by have := hp.2.2; omega⟩

/-- A change made at the clock is placed. -/
theorem placed_here (p g adv t : Nat) (o : Option Nat) (st : TrackState) (hy : Sync p g o st) (hb : Bound p adv st) (c : Command) :
    MadeNear p (slack p * (g + 1)) (total st.commands, c) ⟨t, adv, c⟩ := by
  have := hy.lo
  have := hy.hi
  have := hb.hi
  have := hb.lo
  refine ⟨rfl, ?_, ?_⟩
  · simp only [Nat.mul_add]; omega
  · simp only [Nat.mul_add]; omega

theorem bound_rest (p adv t e q e' : Nat) (hat : adv ≤ t) (hi : 24 * e < 24 * adv + p) (lo : 24 * adv < 24 * e + p + slack p)
    (he : e' = e + q * p / 24) (hqa : t ≤ e → q = 0) (hqb : e < t → q * p ≤ 24 * (t - e) ∧ 24 * (t - e) < q * p + p) (hp : 0 < p) :
    24 * e' < 24 * t + p ∧ 24 * t < 24 * e' + p + slack p := by
  have := slack_bounds q p
  rcases Nat.lt_or_ge e t with h | h
  · have := hqb h; omega
  · have := hqa h; subst this; simp at he; subst he; omega

/-- One event: the clock stays at the latest boundary, and the changes grow by what the event asks for. -/
theorem change_step (p G T : Nat) (f : F32) (hp : 0 < p) (hp2 : p < 65536) (hG : G + 3525 ≤ exactTicks p) (hT : T < 2 ^ 31)
    (now adv g : Nat) (o : Option Nat) (st st' : TrackState) (ev : Message × Nat) (evs : List (Message × Nat))
    (hv : voiceOk p G T now adv o (ev :: evs) = true) (hpr : programsBetweenNotes o.isSome (ev :: evs) = true) (han : adv ≤ now)
    (hs : Safe p now adv o st) (hy : Sync p g o st) (hb : Bound p adv st) (hst : trackStep p f st ev = .ok st') (hy' : Sync p (g + 1) (openAfter o ev) st') :
    Bound p (advAfter adv o ev) st' ∧ advAfter adv o ev ≤ nowAfter now ev ∧
      ∃ new, changeOnsets st'.commands = changeOnsets st.commands ++ new ∧ List.Forall₂ (MadeNear p (slack p * (g + 1 + 1))) new (changeOf f adv ev) := by
  obtain ⟨m, t⟩ := ev
  have hmul : slack p * (g + 1) ≤ slack p * (g + 1 + 1) := Nat.mul_le_mul_left _ (by omega)
  have plain : ∀ c : Command, isChange c = true → st' = { st with commands := st.commands ++ [plainCmd c] } →
      Bound p adv st' ∧ ∃ new, changeOnsets st'.commands = changeOnsets st.commands ++ new ∧ List.Forall₂ (MadeNear p (slack p * (g + 1 + 1))) new [⟨t, adv, c⟩] := by
    rintro c h1 rfl
    exact ⟨⟨hb.hi, hb.lo⟩, _, changeOnsets_plain _ _ h1, .cons (placed_mono _ _ _ hmul _ _ (placed_here p g adv t o st hy hb c)) .nil⟩
  have same : st' = st → Bound p adv st' ∧ ∃ new, changeOnsets st'.commands = changeOnsets st.commands ++ new ∧ List.Forall₂ (MadeNear p (slack p * (g + 1 + 1))) new [] := by
    rintro rfl
    exact ⟨hb, [], by simp, .nil⟩
  rcases m with ⟨dl, e, data⟩ | ⟨dl, e⟩ | ⟨dl, data⟩ | _
  · rcases e with _ | k
    · simp only [voiceOk, Bool.and_eq_true, decide_eq_true_eq] at hv
      have hstep : trackStep p f st (.metaEvent dl .setTempo data, t) =
          .ok { st with commands := st.commands ++ [plainCmd (.tempo (tempoByte (bigEndian (data.take 3)) f))] } := by
        simp only [trackStep, usec_bigEndian data hv.1]; rfl
      rw [hstep] at hst
      simp only [Except.ok.injEq] at hst
      obtain ⟨a, b⟩ := plain _ rfl hst.symm
      exact ⟨a, han, b⟩
    · simp only [trackStep, Except.ok.injEq] at hst
      obtain ⟨a, b⟩ := same hst.symm
      exact ⟨a, han, b⟩
  · have hnt : now ≤ t := by
      simp only [voiceOk, Bool.and_eq_true, decide_eq_true_eq] at hv
      exact hv.1.1
    rcases e with ⟨ch, n, v⟩ | ⟨ch, n, v⟩ | ⟨ch, n, v⟩ | ⟨ch, c, d⟩ | ⟨ch, pr⟩ | ⟨ch, pr⟩ | ⟨ch, x⟩ | ⟨ch⟩
    · -- note off
      simp only [voiceOk, Bool.and_eq_true, decide_eq_true_eq] at hv
      obtain ⟨⟨h1, h2⟩, hn, hv⟩ := hv
      have hn' : n.toNat ≤ 127 := by simpa [UInt8.le_iff_toNat_le] using hn
      rcases o with _ | on
      · have : st.noteStart = none := hs.idle rfl
        simp only [trackStep, trackNoteOff, this, Except.ok.injEq] at hst
        obtain ⟨a, b⟩ := same hst.symm
        exact ⟨a, by simp [advAfter, nowAfter]; omega, b⟩
      · obtain ⟨ho1, s, hss, hsb, hsb2⟩ := hs.busy on rfl
        simp only [Bool.and_eq_true, decide_eq_true_eq] at hv
        obtain ⟨⟨hlen, hgap⟩, h4⟩ := hv
        have hsc := hy.start s hss
        obtain ⟨cmd, hcmd, q, hq1, hq2, hstep⟩ := noteOff_eq p st n t s (by omega) (by omega) hp hp2 hn' hss (by omega)
        simp only [trackStep, hstep, Except.ok.injEq] at hst
        have hcc : isChange cmd = false := by rw [hcmd]; split_ifs <;> rfl
        subst hsc
        have hsl := slack_bounds q p
        have hle : st'.lastNoteEnd = st.lastNoteEnd + q * p / 24 := by rw [← hst]
        refine ⟨⟨?_, ?_⟩, le_rfl, [], ?_, .nil⟩
        · rw [hle]; simp only [advAfter, Option.isSome_some, if_true]; omega
        · rw [hle]; simp only [advAfter, Option.isSome_some, if_true]; omega
        · rw [← hst]; simp only [List.append_nil]
          exact changeOnsets_quiet _ _ (group_noChange _ hcc _ _)
    · -- note on
      simp only [voiceOk, Bool.and_eq_true, decide_eq_true_eq, Option.isNone_iff_eq_none] at hv
      obtain ⟨⟨h1, h2⟩, ⟨⟨⟨ho, hn⟩, hv'⟩, hgap⟩, h4⟩ := hv
      subst ho
      have hn' : n.toNat ≤ 127 := by simpa [UInt8.le_iff_toNat_le] using hn
      have hlag := hs.lag
      obtain ⟨rs, e', hr, hok, ⟨q, hrs, he', hqa, hqb⟩, hmax, -⟩ := insertRest_facts st.commands st.lastNoteEnd t p (by omega) (by omega) hp hp2 hs.cmds
      obtain ⟨sl, hsl, hsl2, hsl3, hstep⟩ := noteOn_eq p st n v t hp hp2 hn' (hs.idle rfl) hs.port rs e' hr
      simp only [trackStep, hstep, Except.ok.injEq] at hst
      obtain ⟨b1, b2⟩ := bound_rest p adv t st.lastNoteEnd q e' (by omega) hb.hi hb.lo he' hqa hqb hp
      refine ⟨?_, le_rfl, [], ?_, .nil⟩
      · rw [← hst]; exact ⟨b1, b2⟩
      · rw [← hst]; simp only [List.append_nil]
        rw [changeOnsets_quiet _ _ (slides_noChange sl hsl2), changeOnsets_quiet _ _ (by rw [hrs]; exact restsOf_noChange _)]
    · simp only [trackStep, Except.ok.injEq] at hst
      obtain ⟨a, b⟩ := same hst.symm
      exact ⟨a, by simp [advAfter, nowAfter]; omega, b⟩
    · -- control change
      simp only [voiceOk, Bool.and_eq_true, decide_eq_true_eq] at hv
      obtain ⟨⟨h1, h2⟩, hd, h4⟩ := hv
      have hd' : d.toNat ≤ 127 := by simpa [UInt8.le_iff_toNat_le] using hd
      by_cases h7 : c = 7
      · have hstep : trackStep p f st (.midiEvent dl (.controlChange ch c d), t) =
            .ok { st with commands := st.commands ++ [plainCmd (.channelVolume (2 * d))] } := by
          subst h7
          simp only [trackStep, trackControl, mulU8]
          rw [if_neg (by decide), if_pos trivial, if_pos (by simp; omega), UInt8.mul_comm]
          rfl
        rw [hstep] at hst
        simp only [Except.ok.injEq] at hst
        obtain ⟨a, b⟩ := plain _ rfl hst.symm
        refine ⟨a, by simp [advAfter, nowAfter]; omega, ?_⟩
        simp only [changeOf, if_pos h7]
        exact b
      · have hcmds : st'.commands = st.commands ∧ st'.lastNoteEnd = st.lastNoteEnd := by
          simp only [trackStep, trackControl] at hst
          split_ifs at hst <;> (simp only [Except.ok.injEq] at hst; subst hst; exact ⟨rfl, rfl⟩)
        obtain ⟨e1, e2⟩ := hcmds
        refine ⟨⟨by rw [e2]; exact hb.hi, by rw [e2]; exact hb.lo⟩, by simp [advAfter, nowAfter]; omega, [], by rw [e1]; simp, ?_⟩
        simp only [changeOf, if_neg h7]
        exact .nil
    · -- program change
      simp only [programsBetweenNotes, Bool.and_eq_true, Bool.not_eq_true', Option.isSome_eq_false_iff, Option.isNone_iff_eq_none] at hpr
      obtain ⟨ho, hpr⟩ := hpr
      subst ho
      simp only [voiceOk, Bool.and_eq_true, decide_eq_true_eq] at hv
      obtain ⟨⟨h1, h2⟩, ⟨hpr1, hgap⟩, h4⟩ := hv
      have hpr' : pr.toNat ≤ 127 := by simpa [UInt8.le_iff_toNat_le] using hpr1
      have hlag := hs.lag
      obtain ⟨rs, e', hr, hok, ⟨q, hrs, he', hqa, hqb⟩, hmax, -⟩ := insertRest_facts st.commands st.lastNoteEnd t p (by omega) (by omega) hp hp2 hs.cmds
      have hstep := program_instr p st ch pr t hpr' rs e' hr
      simp only [trackStep, hstep, Except.ok.injEq] at hst
      obtain ⟨b1, b2⟩ := bound_rest p adv t st.lastNoteEnd q e' (by omega) hb.hi hb.lo he' hqa hqb hp
      have hb' : Bound p t st' := by rw [← hst]; exact ⟨b1, b2⟩
      refine ⟨hb', le_rfl, [(total st'.commands, .setInstrument (instrumentFor ch pr))], ?_, ?_⟩
      · rw [← hst]
        simp only
        rw [changeOnsets_plain _ _ rfl, changeOnsets_quiet _ _ (by rw [hrs]; exact restsOf_noChange _), total_plain]
      · exact .cons (placed_here p (g + 1) t t _ st' hy' hb' _) .nil
    all_goals
      simp only [trackStep, Except.ok.injEq] at hst
      obtain ⟨a, b⟩ := same hst.symm
      exact ⟨a, by simp [advAfter, nowAfter]; omega, b⟩
  all_goals
    simp only [trackStep, Except.ok.injEq] at hst
    obtain ⟨a, b⟩ := same hst.symm
    exact ⟨a, han, b⟩

/-- The whole loop. -/
theorem change_loop (p G T : Nat) (f : F32) (hp : 0 < p) (hp2 : p < 65536) (hG : G + 3525 ≤ exactTicks p) (hG2 : 24 * (G + 1) ≤ 32511 * p) (hT : T < 2 ^ 31)
    (evs : List (Message × Nat)) :
    ∀ (now adv g : Nat) (o : Option (Nat × UInt8)) (st st' : TrackState), adv ≤ now → voiceOk p G T now adv (o.map Prod.fst) evs = true →
      programsBetweenNotes o.isSome evs = true → Safe p now adv (o.map Prod.fst) st → Sync p g (o.map Prod.fst) st → Bound p adv st →
      evs.foldlM (trackStep p f) st = .ok st' →
      ∃ new, changeOnsets st'.commands = changeOnsets st.commands ++ new ∧
        List.Forall₂ (MadeNear p (slack p * (g + evs.length + 1))) new (changes f adv o.isSome evs) := by
  induction evs with
  | nil =>
    intro now adv g o st st' _ _ _ _ _ _ hst
    simp only [List.foldlM_nil, pure, Except.pure, Except.ok.injEq] at hst
    subst hst
    exact ⟨[], by simp, .nil⟩
  | cons ev evs ih =>
    intro now adv g o st st' h0 hv hpr hs hy hb hst
    obtain ⟨st1, h1, h2, h3, h4, h5⟩ := safe_step p G T f hp hp2 hG hT now adv _ st ev evs hv hs
    simp only [List.foldlM_cons, h1] at hst
    obtain ⟨k1, k2, k3, k4⟩ := sync_step p G T f hp hp2 hG hG2 hT now adv g o st st1 ev evs hv hpr hs hy h1
    obtain ⟨c1, c2, new1, c3, c4⟩ := change_step p G T f hp hp2 hG hT now adv g _ st st1 ev evs hv (by rw [Option.isSome_map]; exact hpr) h0 hs hy hb h1 k1
    have hso : soundingAfter o.isSome ev = (openVel o ev).isSome := by
      have := soundingAfter_eq (o.map Prod.fst) ev
      rw [k3, Option.isSome_map, Option.isSome_map] at this
      exact this
    have hsi : sinceAfter adv o.isSome ev = advAfter adv (o.map Prod.fst) ev := by
      rw [← sinceAfter_eq, Option.isSome_map]
    rw [k3] at h2 h3 k1
    obtain ⟨new2, i1, i2⟩ := ih _ _ _ _ _ _ c2 h3 k2 h2 k1 c1 hst
    refine ⟨new1 ++ new2, by rw [i1, c3, List.append_assoc], ?_⟩
    rw [changes, hso, hsi]
    refine List.rel_append (c4.imp fun a b h => placed_mono _ _ _ (Nat.mul_le_mul_left _ ?_) a b h) ?_
    · simp only [List.length_cons]; omega
    · rw [List.length_cons, show g + (evs.length + 1) = g + 1 + evs.length by omega]; exact i2

/-- `Track::new` as a whole. -/
theorem trackNew_changes (evs : List (Message × Nat)) (p G T : Nat) (f : F32) (hp : 0 < p) (hp2 : p < 65536) (hG : G + 3525 ≤ exactTicks p)
    (hG2 : 24 * (G + 1) ≤ 32511 * p) (hT : T < 2 ^ 31) (hv : voiceOk p G T 0 0 none evs = true) (hpr : programsBetweenNotes false evs = true) :
    ∃ cs, trackNew evs p T f = .ok cs ∧ List.Forall₂ (MadeNear p (slack p * (evs.length + 1))) (changeOnsets cs) (changes f 0 false evs) := by
  obtain ⟨st, cs0, cs, h1, h2, h3, h4, -⟩ := trackNew_state evs p G T f hp hp2 hG hT hv
  obtain ⟨new, e1, e2⟩ := change_loop p G T f hp hp2 hG hG2 hT evs 0 0 0 none {} st le_rfl hv hpr (safe_init p hp) (sync_init p) ⟨by simpa using hp, by simp; omega⟩ h1
  refine ⟨cs, h3, ?_⟩
  have hcs : changeOnsets cs = changeOnsets cs0 := by unfold changeOnsets; rw [fused_onsets h4]
  have h0 : changeOnsets cs0 = changeOnsets st.commands := by
    rcases h2 with ⟨a, rfl⟩ | ⟨a, e', b⟩
    · rw [a]
    · unfold insertRest at b
      split_ifs at b
      · simp only [res_bind, res_pure, Prod.mk.injEq] at b
        obtain ⟨d, -, t', -, h1, -⟩ := b
        have : cs0 = st.commands ++ restsOf d := by rw [← h1]; unfold restsOf; split_ifs <;> simp
        rw [this]
        exact changeOnsets_quiet _ _ (restsOf_noChange d)
      · simp only [res_pure, Prod.mk.injEq] at b
        rw [b.1]
  rw [hcs, h0, e1]
  simpa [changeOnsets, onsets] using e2

theorem heardChanges_timing (t : Nat) (l : List Nspc.Ev) : heardChanges t (l.map Nspc.Ev.timing) = heardChanges t l := by
  induction l generalizing t with
  | nil => rfl
  | cons e l ih => cases e <;> simp only [List.map_cons, Nspc.Ev.timing, heardChanges, ih]

/-- A change as the engine sees it. -/
def changeBytes (x : Nat × Command) : Nat × UInt8 × List UInt8 := (x.1, Nspc.encodeCmd Engine.noAddr x.2)

open Nspc in
theorem heardChanges_intended (cs : List PCmd) (h1 : ∀ c ∈ cs, Shaped c) (h2 : ∀ c ∈ cs, ∀ d ∈ c.duration, 0 < d) :
    ∀ (t : Nat) (dur vel sus : UInt8), heardChanges t (intended Engine.noAddr cs dur vel sus) = ((onsets t cs).filter fun x => isChange x.2).map changeBytes := by
  induction cs with
  | nil => intros; rfl
  | cons c cs ih =>
    intro t dur vel sus
    have ih := ih (fun x hx => h1 x (List.mem_cons_of_mem _ hx)) (fun x hx => h2 x (List.mem_cons_of_mem _ hx))
    have hs := h1 c List.mem_cons_self
    have hd := h2 c List.mem_cons_self
    cases hc : c.command
    case note n =>
      obtain ⟨d, e⟩ := hs.timed (by rw [hc]; rfl)
      have h0 : d ≠ 0 := by rintro rfl; exact absurd (hd 0 e) (by decide)
      have hu : units c = d.toNat := by simp [units, e]
      simp only [intended, hc, onsets, heardChanges, hu, List.filter_append, List.map_append, reduceCtorEq, if_false]
      simp only [e, asked, h0, if_false, Option.getD_some]
      rw [ih]; simp [isChange]
    case tie =>
      obtain ⟨d, e⟩ := hs.timed (by rw [hc]; rfl)
      have h0 : d ≠ 0 := by rintro rfl; exact absurd (hd 0 e) (by decide)
      have hu : units c = d.toNat := by simp [units, e]
      simp only [intended, hc, onsets, heardChanges, hu, List.filter_append, List.map_append, reduceCtorEq, if_false]
      simp only [e, asked, h0, if_false, Option.getD_some]
      rw [ih]; simp [isChange]
    case rest =>
      obtain ⟨d, e⟩ := hs.timed (by rw [hc]; rfl)
      have h0 : d ≠ 0 := by rintro rfl; exact absurd (hd 0 e) (by decide)
      have hu : units c = d.toNat := by simp [units, e]
      simp only [intended, hc, onsets, heardChanges, hu, List.filter_append, List.map_append, if_true]
      simp only [e, asked, h0, if_false, Option.getD_some]
      rw [ih]; simp
    all_goals
      obtain ⟨e, -, -⟩ := hs.plain (by rw [hc]; rfl)
      have hu : units c = 0 := by simp [units, e]
      simp only [intended, hc, onsets, heardChanges, encodeCmd, hu, List.filter_append, List.map_append, reduceCtorEq, if_false, Nat.add_zero, ih]
      simp [isChange, changeBytes, encodeCmd]

end M2S
