import Mathlib.Algebra.BigOperators.Ring.Finset
import Verif.Proofs.Clock
import Verif.Props.Changes
import Verif.Props.FileToSound
/-
Real time: from units and tempo commands to microseconds.
-/
namespace M2S
open MidiSpec Timing RomSpec Nspc Engine

theorem inForce_mem {α : Type} (start : α) (cs : List (Nat × α)) (n : Nat) : inForce start cs n = start ∨ ∃ c ∈ cs, inForce start cs n = c.2 := by
  have h : ∀ k a, ((cs.filter fun c => decide (c.1 = k)).getLast?.map Prod.snd).getD a = a ∨ ∃ c ∈ cs, ((cs.filter fun c => decide (c.1 = k)).getLast?.map Prod.snd).getD a = c.2 := by
    intro k a
    cases e : (cs.filter fun c => decide (c.1 = k)).getLast? with
    | none => exact .inl rfl
    | some c => exact .inr ⟨c, List.mem_of_mem_filter (List.mem_of_getLast? e), rfl⟩
  induction n with
  | zero => exact h 0 start
  | succ n ih =>
    unfold inForce
    rcases h (n + 1) (inForce start cs n) with e | e
    · rw [e]; exact ih
    · exact .inr e

/-- In polls: a unit that is near a tick begins near the time the tick has at the tempos sent. -/
theorem polls_near (tpb : Nat) (hp : 0 < tpb) (b0 : Nat) (us ms : List (Nat × Nat)) (hs : us.Pairwise fun x y => x.1 ≤ y.1) (hms : ms.Pairwise fun x y => x.1 ≤ y.1)
    (h : List.Forall₂ (fun x y => x.2 = y.2 ∧ |(x.1 : ℚ) - 24 * y.1 / tpb| < 1) us ms) (hb0 : 0 < b0 ∧ b0 ≤ 255) (hb : ∀ x ∈ us, 0 < x.2 ∧ x.2 ≤ 255)
    (acc : Nat) (ha : acc < 256) (n t : Nat) (hn : |(n : ℚ) - 24 * t / tpb| < 1) :
    ∃ p, Begins (inForce b0 us) acc n p ∧
      |(p : ℚ) - 24 / tpb * ∑ x ∈ Finset.range t, unitPolls (inForce b0 ms x)| ≤ 1 + 2 * unitPolls b0 + 3 * variation (unitPolls b0) (us.map fun x => unitPolls x.2) := by
  have hr : ∀ k, 0 < inForce b0 us k ∧ inForce b0 us k ≤ 255 := by
    intro k
    rcases inForce_mem b0 us k with e | ⟨c, hc, e⟩
    · rw [e]; exact hb0
    · rw [e]; exact hb c hc
  obtain ⟨p, h1, h2, h3⟩ := begins_ideal (inForce b0 us) acc ha (fun k => (hr k).2) (fun k => (hr k).1) n
  refine ⟨p, h1, ?_⟩
  set us' : List (Nat × ℚ) := us.map fun x => (x.1, unitPolls x.2) with hus
  set ms' : List (Nat × ℚ) := ms.map fun x => (x.1, unitPolls x.2) with hmsd
  have hs' : us'.Pairwise fun x y => x.1 ≤ y.1 := List.pairwise_map.2 hs
  have hms' : ms'.Pairwise fun x y => x.1 ≤ y.1 := List.pairwise_map.2 hms
  have hu : ∀ k, unitPolls (inForce b0 us k) = inForce (unitPolls b0) us' k := fun k => (inForce_map unitPolls b0 us k).symm
  have hm : ∀ k, unitPolls (inForce b0 ms k) = inForce (unitPolls b0) ms' k := fun k => (inForce_map unitPolls b0 ms k).symm
  have hi : ideal (inForce b0 us) n = summed (unitPolls b0) n us' := by
    unfold ideal
    rw [Finset.sum_congr rfl fun k _ => hu k, sum_inForce _ _ hs']
  have hsum : ∑ x ∈ Finset.range t, unitPolls (inForce b0 ms x) = summed (unitPolls b0) t ms' := by
    rw [Finset.sum_congr rfl fun k _ => hm k, sum_inForce _ _ hms']
  have hnear : List.Forall₂ (fun x y => x.2 = y.2 ∧ |(x.1 : ℚ) - 24 * y.1 / tpb| ≤ 1) us' ms' := by
    rw [hus, hmsd, List.forall₂_map_left_iff, List.forall₂_map_right_iff]
    exact h.imp fun a b g => ⟨by rw [g.1], g.2.le⟩
  have k1 := summed_near tpb hp n t hn.le (unitPolls b0) hnear
  have k2 := inForce_variation (unitPolls b0) us' hs' (n - 1)
  have hmap : us'.map Prod.snd = us.map fun x => unitPolls x.2 := by rw [hus, List.map_map]; rfl
  rw [hmap] at k1 k2
  have hv : varied (inForce b0 us) (n - 1) = ∑ i ∈ Finset.range (n - 1), |inForce (unitPolls b0) us' (i + 1) - inForce (unitPolls b0) us' i| := by
    unfold varied
    exact Finset.sum_congr rfl fun k _ => by rw [hu, hu]
  rw [hu 0] at h2
  rw [← hv] at k2
  have hl : 0 ≤ unitPolls b0 := by unfold unitPolls; positivity
  rw [abs_of_nonneg hl] at k1
  rw [hsum]
  rw [hi] at h2 h3
  have k3 := le_abs_self (inForce (unitPolls b0) us' 0 - unitPolls b0)
  have k4 := abs_nonneg (inForce (unitPolls b0) us' 0 - unitPolls b0)
  have k5 := varied_nonneg (inForce b0 us) (n - 1)
  rw [abs_le] at k1 ⊢
  constructor <;> linarith [k1.1, k1.2]

/-- In microseconds. -/
theorem micros_near (tpb : Nat) (hp : 0 < tpb) (β : Nat → Nat) (ε : ℚ) (u0 : Nat) (us tm : List (Nat × Nat)) (hs : us.Pairwise fun x y => x.1 ≤ y.1) (htm : tm.Pairwise fun x y => x.1 ≤ y.1)
    (h : List.Forall₂ (fun x y => x.2 = β y.2 ∧ |(x.1 : ℚ) - 24 * y.1 / tpb| < 1) us tm)
    (hb : ∀ u, (u = u0 ∨ ∃ x ∈ tm, u = x.2) → 0 < β u ∧ β u ≤ 255 ∧ |(12288000 : ℚ) / β u - u| ≤ ε * u)
    (acc : Nat) (ha : acc < 256) (n t : Nat) (hn : |(n : ℚ) - 24 * t / tpb| < 1) :
    ∃ p, Begins (inForce (β u0) us) acc n p ∧
      |(2000 : ℚ) * p - ∑ x ∈ Finset.range t, ((inForce u0 tm x : Nat) : ℚ) / tpb| ≤ ε * (∑ x ∈ Finset.range t, ((inForce u0 tm x : Nat) : ℚ) / tpb) +
        2000 * (1 + 2 * unitPolls (β u0) + 3 * variation (unitPolls (β u0)) (tm.map fun x => unitPolls (β x.2))) := by
  have hpq : (0 : ℚ) < tpb := by exact_mod_cast hp
  have hval : us.map (fun x => unitPolls x.2) = tm.map fun x => unitPolls (β x.2) := by
    clear hs htm hb
    induction h with
    | nil => rfl
    | cons g _ ih => rw [List.map_cons, List.map_cons, ih, g.1]
  have hus : ∀ x ∈ us, ∃ y ∈ tm, x.2 = β y.2 := by
    clear hs htm hb hval
    induction h with
    | nil => intro x hx; cases hx
    | @cons a b _ _ g _ ih =>
      intro x hx
      rcases List.mem_cons.1 hx with rfl | hx
      · exact ⟨b, List.mem_cons_self, g.1⟩
      · obtain ⟨y, hy, e⟩ := ih x hx
        exact ⟨y, List.mem_cons_of_mem _ hy, e⟩
  obtain ⟨p, h1, h2⟩ := polls_near tpb hp (β u0) us (tm.map fun x => (x.1, β x.2)) hs (List.pairwise_map.2 htm) (by rw [List.forall₂_map_right_iff]; exact h)
    ⟨(hb u0 (.inl rfl)).1, (hb u0 (.inl rfl)).2.1⟩ (by
      intro x hx
      obtain ⟨y, hy, e⟩ := hus x hx
      rw [e]
      have := hb y.2 (.inr ⟨y, hy, rfl⟩)
      exact ⟨this.1, this.2.1⟩) acc ha n t hn
  refine ⟨p, h1, ?_⟩
  rw [hval] at h2
  have h3 : |2000 * (24 / tpb * ∑ x ∈ Finset.range t, unitPolls (inForce (β u0) (tm.map fun x => (x.1, β x.2)) x)) - ∑ x ∈ Finset.range t, ((inForce u0 tm x : Nat) : ℚ) / tpb| ≤
      ε * (∑ x ∈ Finset.range t, ((inForce u0 tm x : Nat) : ℚ) / tpb) := by
    rw [Finset.mul_sum, Finset.mul_sum, Finset.mul_sum, ← Finset.sum_sub_distrib]
    refine (Finset.abs_sum_le_sum_abs _ _).trans (Finset.sum_le_sum fun x _ => ?_)
    rw [inForce_map β u0 tm x]
    have hmem : inForce u0 tm x = u0 ∨ ∃ y ∈ tm, inForce u0 tm x = y.2 := inForce_mem u0 tm x
    obtain ⟨g1, -, g2⟩ := hb _ hmem
    have hβ : (0 : ℚ) < β (inForce u0 tm x) := by exact_mod_cast g1
    have e : 2000 * (24 / (tpb : ℚ) * unitPolls (β (inForce u0 tm x))) - ((inForce u0 tm x : Nat) : ℚ) / tpb =
        (12288000 / β (inForce u0 tm x) - (inForce u0 tm x : Nat)) / tpb := by
      unfold unitPolls
      field_simp
      ring
    rw [e, abs_div, abs_of_pos hpq, ← mul_div_assoc]
    exact div_le_div_of_nonneg_right g2 hpq.le
  rw [abs_le] at h2 h3 ⊢
  constructor <;> linarith [h2.1, h2.2, h3.1, h3.2]

/-! The tempo commands. -/

theorem heardChanges_from (l : List Ev) : ∀ t, (∀ x ∈ heardChanges t l, t ≤ x.1) ∧ (heardChanges t l).Pairwise fun a b => a.1 ≤ b.1 := by
  induction l with
  | nil => intro t; exact ⟨fun x hx => (List.not_mem_nil hx).elim, List.Pairwise.nil⟩
  | cons e l ih =>
    intro t
    cases e with
    | note n d v s => exact ⟨fun x hx => (Nat.le_add_right _ _).trans ((ih _).1 x hx), (ih _).2⟩
    | perc n d v s => exact ⟨fun x hx => (Nat.le_add_right _ _).trans ((ih _).1 x hx), (ih _).2⟩
    | tie d => exact ⟨fun x hx => (Nat.le_add_right _ _).trans ((ih _).1 x hx), (ih _).2⟩
    | rest d => exact ⟨fun x hx => (Nat.le_add_right _ _).trans ((ih _).1 x hx), (ih _).2⟩
    | cmd op args =>
      obtain ⟨h1, h2⟩ := ih t
      simp only [heardChanges]
      split_ifs
      · refine ⟨?_, ?_⟩
        · intro x hx
          rcases List.mem_cons.1 hx with rfl | hx
          · exact le_rfl
          · exact h1 x hx
        · exact List.pairwise_cons.2 ⟨fun x hx => h1 x hx, h2⟩
      · exact ⟨h1, h2⟩

theorem heardTempos_sorted (l : List Ev) : (heardTempos l).Pairwise fun a b => a.1 ≤ b.1 := by
  unfold heardTempos
  rw [List.pairwise_filterMap]
  refine (heardChanges_from l 0).2.imp ?_
  intro a b hab x hx y hy
  have key : ∀ (c : Nat × UInt8 × List UInt8) (z : Nat × Nat), (if c.2.1 = 0xe7 then c.2.2.head?.map fun b => (c.1, b.toNat) else none) = some z → z.1 = c.1 := by
    intro c z hz
    split_ifs at hz
    cases hh : c.2.2.head? with
    | none => rw [hh] at hz; cases hz
    | some b => rw [hh] at hz; cases hz; rfl
  rw [key a x hx, key b y hy]
  exact hab

theorem heardTempos_since (tpb : Nat) (f : F32) (evs : List (Message × Nat)) (l : List Ev) (rest : List (Nat × UInt8 × List UInt8)) (hl : heardChanges 0 l = (0, 0xed, [0xc8]) :: rest)
    (h : List.Forall₂ (HeardSince tpb) rest (changes f 0 false evs)) :
    List.Forall₂ (fun x c => Command.tempo (UInt8.ofNat x.2) = c.command ∧ x.2 < 256 ∧ |(x.1 : ℚ) - 24 * c.since / tpb| < 1) (heardTempos l)
      ((changes f 0 false evs).filter fun c => isTempo c.command) := by
  have hcmds : ∀ c ∈ changes f 0 false evs, (∃ i, c.command = .setInstrument i) ∨ (∃ x, c.command = .channelVolume x) ∨ ∃ x, c.command = .tempo x := by
    intro c hc
    rcases changes_mem f evs 0 false c hc with ⟨i, h, -⟩ | h | h
    · exact .inl ⟨i, h⟩
    · exact .inr (.inl h)
    · exact .inr (.inr h)
  unfold heardTempos
  rw [hl, List.filterMap_cons, if_neg (by decide)]
  generalize changes f 0 false evs = cs at h hcmds
  clear hl
  induction h with
  | nil => exact .nil
  | @cons x c rest cs g _ ih =>
    have ih := ih fun c hc => hcmds c (List.mem_cons_of_mem _ hc)
    obtain ⟨g1, g2⟩ := g
    rw [List.filterMap_cons, List.filter_cons]
    rcases hcmds c List.mem_cons_self with ⟨i, e⟩ | ⟨i, e⟩ | ⟨i, e⟩
    · rw [e] at g1
      rw [g1, if_neg (by show ¬ (0xe0 : UInt8) = 0xe7; decide), if_neg (by rw [e]; exact Bool.false_ne_true)]
      exact ih
    · rw [e] at g1
      rw [g1, if_neg (by show ¬ (0xed : UInt8) = 0xe7; decide), if_neg (by rw [e]; exact Bool.false_ne_true)]
      exact ih
    · rw [e] at g1
      rw [g1, if_pos (by rfl), if_pos (by rw [e]; rfl)]
      refine .cons ⟨?_, ?_, g2⟩ ih
      · rw [e]
        show Command.tempo (UInt8.ofNat i.toNat) = _
        rw [UInt8.ofNat_toNat]
      · exact i.toNat_lt

/-! The tempo map of the file. -/

theorem tempoOf_message (f : F32) (m : Message × Nat) : tempoOf f m = (tempoMessage m).map fun x => (x.1, .tempo (tempoByte x.2 f)) := by
  obtain ⟨m, t⟩ := m
  rcases m with ⟨dl, e, data⟩ | ⟨dl, e⟩ | ⟨dl, data⟩ | _ <;> try rfl
  cases e <;> rfl

/-- Lists in time order are determined by what is at each time. -/
theorem sorted_ext {α : Type} : ∀ {a b : List (Nat × α)}, (a.Pairwise fun x y => x.1 ≤ y.1) → (b.Pairwise fun x y => x.1 ≤ y.1) →
    (∀ t, (a.filter fun x => decide (x.1 = t)) = b.filter fun x => decide (x.1 = t)) → a = b := by
  intro a
  induction a with
  | nil =>
    intro b _ _ h
    cases b with
    | nil => rfl
    | cons y b => have := h y.1; simp at this
  | cons x a ih =>
    intro b ha hb h
    cases b with
    | nil => have := h x.1; simp at this
    | cons y b =>
      obtain ⟨a1, a2⟩ := List.pairwise_cons.1 ha
      obtain ⟨b1, b2⟩ := List.pairwise_cons.1 hb
      have mem : ∀ z : Nat × α, z ∈ x :: a ↔ z ∈ y :: b := by
        intro z
        have := congrArg (z ∈ ·) (h z.1)
        simpa using this
      have hxy : x.1 = y.1 := by
        have e1 : y.1 ≤ x.1 := by
          rcases List.mem_cons.1 ((mem x).1 List.mem_cons_self) with e | e
          · rw [e]
          · exact b1 x e
        have e2 : x.1 ≤ y.1 := by
          rcases List.mem_cons.1 ((mem y).2 List.mem_cons_self) with e | e
          · rw [e]
          · exact a1 y e
        omega
      have hx : x = y := by
        have := h x.1
        rw [List.filter_cons_of_pos (by simp), List.filter_cons_of_pos (by simp [hxy])] at this
        exact (List.cons.inj this).1
      subst hx
      rw [ih a2 b2 fun t => ?_]
      have := h t
      rw [List.filter_cons, List.filter_cons] at this
      split_ifs at this
      · exact (List.cons.inj this).2
      · exact this

theorem tempoMap_sorted (l : List (Message × Nat)) : (tempoMap l).Pairwise fun a b => a.1 ≤ b.1 := by
  have := List.pairwise_mergeSort (le := fun a b : Nat × Nat => decide (a.1 ≤ b.1)) (by simp; intros; omega) (by simp; intros; omega) (l.filterMap tempoMessage)
  simpa [tempoMap] using this

theorem tempoMap_filter (l : List (Message × Nat)) (t : Nat) : ((tempoMap l).filter fun x => decide (x.1 = t)) = (l.filterMap tempoMessage).filter fun x => decide (x.1 = t) := by
  set a := l.filterMap tempoMessage with ha
  have hsub : ((a.filter fun x => decide (x.1 = t)).Sublist (tempoMap l)) := by
    unfold tempoMap
    refine List.sublist_mergeSort (by simp; intros; omega) (by simp; intros; omega) ?_ List.filter_sublist
    rw [List.pairwise_iff_forall_sublist]
    intro x y hxy
    have hx := hxy.subset (List.mem_cons_self)
    have hy := hxy.subset (List.mem_cons_of_mem _ List.mem_cons_self)
    rw [List.mem_filter] at hx hy
    simp only [decide_eq_true_eq] at hx hy ⊢
    omega
  have hs2 : (a.filter fun x => decide (x.1 = t)).Sublist ((tempoMap l).filter fun x => decide (x.1 = t)) := by
    have := hsub.filter fun x => decide (x.1 = t)
    rwa [List.filter_filter, show (fun x : Nat × Nat => decide (x.1 = t) && decide (x.1 = t)) = fun x => decide (x.1 = t) by funext x; simp] at this
  exact (hs2.eq_of_length (((List.mergeSort_perm a _).filter _).length_eq.symm)).symm

theorem voice_tempos (ord : EnumOrder) (calls : List Callback) (h : MidiHandler) (hr : readMidi ord calls = .ok h) : (h.voices 0).filterMap tempoMessage = tempoMap (file calls) := by
  obtain ⟨s1, s2, s3, s4⟩ := C29_system_messages ord calls h hr
  have sys : ∀ (q : Message → Bool) (hq : ∀ m, q m = false → ∀ t, tempoMessage (m, t) = none) (l : List (Message × Nat)), l.filterMap tempoMessage = (l.filter fun m => q m.1).filterMap tempoMessage := by
    intro q hq l
    rw [List.filterMap_filter]
    apply List.filterMap_congr
    rintro ⟨m, t⟩ _
    split_ifs with h0
    · rfl
    · exact hq m (by simpa using h0) t
  have hsys : ∀ m, isSystem m = false → ∀ t, tempoMessage (m, t) = none := by
    intro m hm t
    rcases m with ⟨dl, e, data⟩ | ⟨dl, e⟩ | ⟨dl, data⟩ | _ <;> try rfl
    cases e with
    | setTempo => cases hm
    | _ => rfl
  have hglob : ∀ m, isGlobal m = false → ∀ t, tempoMessage (m, t) = none := by
    intro m hm t
    rcases m with ⟨dl, e, data⟩ | ⟨dl, e⟩ | ⟨dl, data⟩ | _ <;> try rfl
    cases e with
    | setTempo => cases hm
    | _ => rfl
  have htime : ∀ (m : Message × Nat) x, tempoMessage m = some x → x.1 = m.2 := by
    rintro ⟨m, t⟩ x hx
    unfold tempoMessage at hx
    split at hx
    · rename_i heq
      cases heq
      cases hx
      rfl
    · cases hx
  have hcls : ∀ (l : List (Message × Nat)) t, (l.filterMap tempoMessage).filter (fun x => decide (x.1 = t)) = (l.filter fun m => decide (m.2 = t)).filterMap tempoMessage := by
    intro l t
    rw [List.filter_filterMap, List.filterMap_filter]
    apply List.filterMap_congr
    intro m _
    cases hm : tempoMessage m with
    | none => simp
    | some x => have := htime m x hm; simp [Option.filter, this]
  refine sorted_ext ?_ (tempoMap_sorted _) ?_
  · rw [sys _ hsys, List.pairwise_filterMap]
    refine s2.imp ?_
    intro a b hab x hx y hy
    rw [htime a x hx, htime b y hy]
    exact hab
  · intro t
    rw [tempoMap_filter, sys _ hsys, sys _ hglob (file calls), hcls, hcls, s3 t]

/-- The tempo changes of a song played with the timing it should have are those of the file, if they come at starts or ends of notes of the first voice. -/
theorem song_tempos (ord : EnumOrder) (calls : List Callback) (m : MidiHandler) (hread : readMidi ord calls = .ok m) (f : F32)
    (hon : ∀ c ∈ changes f 0 false (m.voices 0), isTempo c.command = true → c.since = c.time)
    (vs : List (Fin 8)) (evs : List (Option (List Ev))) (g1 : vs.Pairwise (· < ·)) (g2 : ∀ v, v ∉ vs → changes f 0 false (m.voices v) = []) (g3 : evs.length = 8)
    (g4 : ∀ i < 8, match vs[i]? with
        | some v => ∃ l rest, evs[i]? = some (some l) ∧ heardChanges 0 l = (0, 0xed, [0xc8]) :: rest ∧
            List.Forall₂ (HeardSince m.ticksPerBeat) rest (changes f 0 false (m.voices v))
        | none => evs[i]? = some none) :
    (songTempos evs).Pairwise (fun a b => a.1 ≤ b.1) ∧
    List.Forall₂ (fun x y => x.2 = (tempoByte y.2 f).toNat ∧ |(x.1 : ℚ) - 24 * y.1 / m.ticksPerBeat| < 1) (songTempos evs) (tempoMap (file calls)) := by
  obtain ⟨-, -, hno⟩ := C65_file_tempos ord calls m hread f
  have hnone : ∀ (v : Fin 8), v ≠ 0 → ∀ l rest, heardChanges 0 l = (0, 0xed, [0xc8]) :: rest → List.Forall₂ (HeardSince m.ticksPerBeat) rest (changes f 0 false (m.voices v)) → heardTempos l = [] := by
    intro v hv l rest e1 e2
    have := heardTempos_since _ f _ l rest e1 e2
    rw [List.filter_eq_nil_iff.2 (fun c hc => by rw [hno v hv c hc]; exact Bool.false_ne_true)] at this
    exact List.forall₂_nil_right_iff.mp this
  -- the tempo changes asked for are the tempo map
  have hmap : ((changes f 0 false (m.voices 0)).filter fun c => isTempo c.command).map (fun c => (c.time, c.command)) = (tempoMap (file calls)).map fun x => (x.1, Command.tempo (tempoByte x.2 f)) := by
    rw [changes_tempos, ← voice_tempos ord calls m hread, List.map_filterMap]
    exact List.filterMap_congr fun x _ => tempoOf_message f x
  cases evs with
  | nil => cases g3
  | cons c0 evs =>
    have hrest : ∀ c ∈ evs, c.elim [] heardTempos = [] := by
      intro c hc
      obtain ⟨i, hi, rfl⟩ := List.mem_iff_getElem.1 hc
      have h := g4 (i + 1) (by simp at g3; omega)
      cases hv : vs[i + 1]? with
      | none =>
        rw [hv] at h
        simp only [List.getElem?_cons_succ, List.getElem?_eq_getElem hi, Option.some.injEq] at h
        rw [h]; rfl
      | some v =>
        rw [hv] at h
        obtain ⟨l, rest, e0, e1, e2⟩ := h
        rw [List.getElem?_cons_succ, List.getElem?_eq_getElem hi, Option.some.injEq] at e0
        rw [e0]
        refine hnone v ?_ l rest e1 e2
        rintro rfl
        obtain ⟨hl, he⟩ := List.getElem?_eq_some_iff.1 hv
        have := List.pairwise_iff_getElem.1 g1 0 (i + 1) (by omega) hl (by omega)
        rw [he] at this
        exact absurd this (by simp)
    have hsong : songTempos (c0 :: evs) = c0.elim [] heardTempos := by
      unfold songTempos
      rw [List.flatMap_cons, List.flatMap_eq_nil_iff.2 hrest, List.append_nil]
    have h0 := g4 0 (by omega)
    rw [List.getElem?_cons_zero] at h0
    have hempty : (0 : Fin 8) ∉ vs → tempoMap (file calls) = [] := by
      intro hn
      rw [g2 0 hn] at hmap
      exact (List.map_eq_nil_iff.1 hmap.symm)
    cases hv : vs[0]? with
    | none =>
      rw [hv] at h0
      simp only [Option.some.injEq] at h0
      subst h0
      have : vs = [] := by cases vs with
        | nil => rfl
        | cons a l => cases hv
      subst this
      rw [hsong, hempty (by simp)]
      exact ⟨.nil, .nil⟩
    | some v =>
      rw [hv] at h0
      obtain ⟨l, rest, e0, e1, e2⟩ := h0
      rw [Option.some.injEq] at e0
      subst e0
      rw [hsong]
      refine ⟨heardTempos_sorted l, ?_⟩
      show List.Forall₂ _ (heardTempos l) _
      by_cases hz : v = 0
      · subst hz
        have h5 := heardTempos_since _ f _ l rest e1 e2
        have hon' : ∀ c ∈ (changes f 0 false (m.voices 0)).filter (fun c => isTempo c.command), c.since = c.time := fun c hc => hon c (List.mem_of_mem_filter hc) (List.mem_filter.1 hc).2
        generalize ((changes f 0 false (m.voices 0)).filter fun c => isTempo c.command) = cs at h5 hmap hon'
        generalize tempoMap (file calls) = tm at hmap
        clear e1 hsong
        generalize heardTempos l = us at h5
        induction h5 generalizing tm with
        | nil => cases tm with
          | nil => exact .nil
          | cons y tm => cases hmap
        | @cons x c us cs q _ ih =>
          cases tm with
          | nil => cases hmap
          | cons y tm =>
            obtain ⟨q1, q2, q3⟩ := q
            rw [List.map_cons, List.map_cons] at hmap
            injection hmap with k1 k2
            injection k1 with k3 k4
            refine .cons ⟨?_, ?_⟩ (ih (fun c hc => hon' c (List.mem_cons_of_mem _ hc)) tm k2)
            · rw [k4] at q1
              injection q1 with q1
              rw [← q1, UInt8.toNat_ofNat']
              omega
            · rw [← k3, ← hon' c List.mem_cons_self]
              exact q3
      · rw [hnone v hz l rest e1 e2, hempty ?_]
        · exact .nil
        · intro hm
          obtain ⟨i, hi, he⟩ := List.mem_iff_getElem.1 hm
          obtain ⟨hl, he0⟩ := List.getElem?_eq_some_iff.1 hv
          rcases Nat.eq_zero_or_pos i with rfl | hpos
          · exact hz (he0.symm.trans he)
          · have := List.pairwise_iff_getElem.1 g1 0 i hl hi hpos
            rw [he] at this
            exact absurd this (by simp)

end M2S
