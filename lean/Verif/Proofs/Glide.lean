import Verif.Proofs.Portamento
import Verif.Proofs.MidiPlayable
import Verif.Spec.Glide
/-
Portamento: the slides of a converted voice against its leads.
-/
namespace M2S
open Timing

/-! ## Slides of a command list -/

/-- For each note of a command list the slide to it. -/
def glides : Nat → Option Glide → List PCmd → List (Option Glide)
  | _, _, [] => []
  | last, g, c :: cs =>
    match c.command with
    | .note _ => none :: glides (units c) none cs
    | .tie => (if g.isSome then [g] else []) ++ glides (units c) none cs
    | .rest => glides (units c) none cs
    | .pitchSlide a b _ => glides last (some ⟨last, a.toNat, b.toNat⟩) cs
    | _ => glides last none cs

/-- The length of the last item and the slide directly before the end. -/
def gend : Nat → Option Glide → List PCmd → Nat × Option Glide
  | last, g, [] => (last, g)
  | last, _, c :: cs =>
    match c.command with
    | .note _ => gend (units c) none cs
    | .tie => gend (units c) none cs
    | .rest => gend (units c) none cs
    | .pitchSlide a b _ => gend last (some ⟨last, a.toNat, b.toNat⟩) cs
    | _ => gend last none cs

theorem glides_append (a b : List PCmd) : ∀ l g, glides l g (a ++ b) = glides l g a ++ glides (gend l g a).1 (gend l g a).2 b := by
  induction a with
  | nil => intro l g; rfl
  | cons c cs ih =>
    intro l g
    obtain ⟨d, v, s, cmd⟩ := c
    cases cmd <;> simp only [List.cons_append, glides, gend, ih, List.append_assoc]

theorem gend_append (a b : List PCmd) : ∀ l g, gend l g (a ++ b) = gend (gend l g a).1 (gend l g a).2 b := by
  induction a with
  | nil => intro l g; rfl
  | cons c cs ih =>
    intro l g
    obtain ⟨d, v, s, cmd⟩ := c
    cases cmd <;> simp only [List.cons_append, gend, ih]

theorem gend_last (cs : List PCmd) : (cs.getLast?).any PCmd.isSlide = (gend 0 none cs).2.isSome := by
  rcases List.eq_nil_or_concat cs with rfl | ⟨l, c, rfl⟩
  · rfl
  · rw [List.concat_eq_append, gend_append]
    obtain ⟨d, v, s, cmd⟩ := c
    cases cmd <;> simp [gend, PCmd.isSlide]

theorem glides_rests (cs : List PCmd) (h : ∀ c ∈ cs, c.command = .rest) : ∀ l g, glides l g cs = [] ∧ (cs ≠ [] → (gend l g cs).2 = none) := by
  induction cs with
  | nil => intro l g; exact ⟨rfl, fun h => absurd rfl h⟩
  | cons c cs ih =>
    intro l g
    have h1 := h c List.mem_cons_self
    have ih := ih fun x hx => h x (List.mem_cons_of_mem _ hx)
    simp only [glides, gend, h1]
    refine ⟨(ih _ _).1, fun _ => ?_⟩
    cases cs with
    | nil => rfl
    | cons c' cs => exact (ih _ _).2 (by simp)

theorem ties_end (n : Nat) (c : PCmd) (hc : c.command = .tie) : ∀ l, glides l none (List.replicate n c) = [] ∧ (gend l none (List.replicate n c)).2 = none := by
  induction n with
  | zero => intro l; exact ⟨rfl, rfl⟩
  | succ n ih =>
    intro l
    simp only [List.replicate_succ, glides, gend, hc, Option.isSome_none, Bool.false_eq_true, if_false, List.nil_append]
    exact ih _

/-- Notes and ties: what a slide may follow. -/
def canSlide (c : PCmd) : Bool :=
  match c.command with
  | .note _ => true
  | .tie => true
  | _ => false

/-- The commands of a note. -/
theorem glides_group (cmd : Command) (v : UInt8) (d : Duration) (l : Nat) (g : Option Glide) (hcmd : (g = none ∧ ∃ n, cmd = .note n) ∨ (g.isSome = true ∧ cmd = .tie)) :
    glides l g (noteGroup cmd v d) = [g] ∧ (gend l g (noteGroup cmd v d)).2 = none ∧
      ∃ c dd, (noteGroup cmd v d).getLast? = some c ∧ c.duration = some dd ∧ canSlide c = true ∧ (gend l g (noteGroup cmd v d)).1 = dd.toNat := by
  obtain ⟨len, x, k⟩ := d
  have hc : cmd = .tie ∨ ∃ n, cmd = .note n := by
    rcases hcmd with ⟨-, h⟩ | ⟨-, h⟩
    · exact .inr h
    · exact .inl h
  have hg : ∀ (c : PCmd) (cs : List PCmd), c.command = cmd → glides l g (c :: cs) = g :: glides (units c) none cs ∧ gend l g (c :: cs) = gend (units c) none cs := by
    intro c cs h
    rcases hcmd with ⟨rfl, n, rfl⟩ | ⟨hs, rfl⟩
    · simp only [glides, gend, h, and_self]
    · simp only [glides, gend, h, hs, if_true, List.cons_append, List.nil_append, and_self]
  unfold noteGroup
  cases k with
  | zero =>
    obtain ⟨e1, e2⟩ := hg ⟨some (if (0 : Nat) > 0 then 0x7f else len), some (v / 8), some 7, cmd⟩ [] rfl
    have : noteTies ⟨len, x, 0⟩ = [] := rfl
    rw [this]
    refine ⟨e1, by rw [e2]; rfl, _, len, rfl, rfl, ?_, by rw [e2]; rfl⟩
    · rcases hc with rfl | ⟨n, rfl⟩ <;> rfl
  | succ k =>
    obtain ⟨e1, e2⟩ := hg ⟨some (if k + 1 > 0 then 0x7f else len), some (v / 8), some 7, cmd⟩ (noteTies ⟨len, x, k + 1⟩) rfl
    rw [noteTies_succ] at e1 e2 ⊢
    obtain ⟨t1, t2⟩ := ties_end k ⟨some 0x7f, none, none, .tie⟩ rfl (units ⟨some (if k + 1 > 0 then 0x7f else len), some (v / 8), some 7, cmd⟩)
    refine ⟨?_, ?_, ⟨some len, none, none, .tie⟩, len, ?_, rfl, rfl, ?_⟩
    · rw [e1, glides_append, t1, t2]; rfl
    · rw [e2, gend_append]; rfl
    · rw [← List.cons_append]; exact List.getLast?_concat
    · rw [e2, gend_append]; rfl

/-- Slides come right after notes and ties. The first argument says whether one may come first. -/
def slidesOk : Bool → List PCmd → Bool
  | _, [] => true
  | ok, c :: cs => (!c.isSlide || ok) && slidesOk (canSlide c) cs

theorem slidesOk_append (a b : List PCmd) : ∀ ok, slidesOk ok (a ++ b) = (slidesOk ok a && slidesOk ((a.getLast?.map canSlide).getD ok) b) := by
  induction a with
  | nil => intro ok; simp [slidesOk]
  | cons c cs ih =>
    intro ok
    rw [List.cons_append, slidesOk, slidesOk, ih, Bool.and_assoc]
    cases cs with
    | nil => simp
    | cons c' cs => rw [List.getLast?_cons_cons, List.getLast?_eq_some_getLast (List.cons_ne_nil _ _)]; rfl

theorem slidesOk_none (cs : List PCmd) (h : ∀ c ∈ cs, c.isSlide = false) : ∀ ok, slidesOk ok cs = true := by
  induction cs with
  | nil => intro ok; rfl
  | cons c cs ih =>
    intro ok
    rw [slidesOk, h c List.mem_cons_self, ih fun x hx => h x (List.mem_cons_of_mem _ hx)]
    rfl

theorem glides_length (cs : List PCmd) (h : slidesOk false cs = true) : ∀ x y, glides x none cs = glides y none cs := by
  induction cs with
  | nil => intro x y; rfl
  | cons c cs ih =>
    intro x y
    obtain ⟨d, v, s, cmd⟩ := c
    cases cmd <;> simp only [glides]
    case pitchSlide => simp [slidesOk, PCmd.isSlide] at h
    all_goals exact ih (by simpa [slidesOk, PCmd.isSlide, canSlide] using h) _ _

theorem restsOf_command (d : Duration) : ∀ c ∈ restsOf d, c.command = .rest := by
  intro c hc
  unfold restsOf at hc
  rw [List.mem_append] at hc
  rcases hc with hc | hc
  · rw [List.eq_of_mem_replicate hc]; rfl
  · split_ifs at hc
    · simp only [List.mem_singleton] at hc; subst hc; rfl
    · simp at hc

theorem restsOf_empty (q x : Nat) : restsOf (splitLength q x) = [] ↔ q = 0 := by
  constructor
  · intro h
    by_contra hq
    have := (splitLength_len q x (by omega)).1
    unfold restsOf at h
    rw [List.append_eq_nil_iff] at h
    have h2 := h.2
    rw [if_pos (by rw [gt_iff_lt, UInt8.lt_iff_toNat_lt]; simpa using this)] at h2
    simp at h2
  · rintro rfl
    simp [restsOf, splitLength]

/-- The note-on arm with the slide it writes. -/
theorem noteOn_slide (p : Nat) (st : TrackState) (n v : UInt8) (t : Nat) (hp : 0 < p) (hp2 : p < 65536)
    (hn : n.toNat ≤ 127) (hs : st.noteStart = none) (hport : st.portTime < 65536) (rs : List PCmd) (e' : Nat)
    (hr : insertRest st.commands st.lastNoteEnd t p = .ok (st.commands ++ rs, e')) :
    trackNoteOn p st n v t = .ok { st with
        commands := st.commands ++ rs ++ (if st.portamento then ((st.commands ++ rs).getLast?.bind fun c =>
          c.createPitchSlide (splitLength (exactLength st.portTime p true) (exactLength st.portTime p true * p / 24)).length (n + 0x68)).toList else [])
        lastNoteEnd := e', noteStart := some e', noteVelocity := v } := by
  unfold trackNoteOn
  simp only [hr, bind, Except.bind, hs, Option.isSome_none, Bool.false_eq_true, if_false]
  rcases hl : (st.commands ++ rs).getLast? with _ | last
  · simp [pure, Except.pure]
  · cases hpm : st.portamento with
    | false => simp [pure, Except.pure]
    | true =>
      simp only [if_true, getDuration_eq st.portTime p (by have := exactTicks_ge p; omega) hp hp2, addU8]
      rw [if_pos (by simp; omega)]
      rfl

theorem slideUnits_split (p t x : Nat) : (splitLength (exactLength t p true) x).length.toNat = slideUnits p t := by
  unfold splitLength slideUnits exactLength
  simp only [if_true]
  generalize (24 * t + p - 1) / p = q
  split_ifs <;> simp <;> omega

/-- The state of the converter against the spec's. `done` are the notes so far. -/
structure Leading (p : Nat) (s : Port) (o : Option Nat) (done : List (MidiNote × Option Lead)) (st : TrackState) : Prop where
  on : st.portamento = s.on
  ticks : st.portTime = s.ticks
  isOpen : o = s.held.map (·.1)
  dvd : p / 24 ∣ st.lastNoteEnd
  dvdStart : ∀ x, st.noteStart = some x → p / 24 ∣ x
  idle : s.held = none → (gend 0 none st.commands).2 = none
  last : ∀ off, s.last = some off → s.held = none ∧ ∃ c d, st.commands.getLast? = some c ∧ c.duration = some d ∧ canSlide c = true ∧
    (gend 0 none st.commands).1 = d.toNat ∧ 24 * st.lastNoteEnd = p * ((24 * off + p - 1) / p)
  first : s.held = none → s.last = none → ∀ c, st.commands.getLast? = some c → c.duration = none
  held : ∀ on v l, s.held = some (on, v, l) → ∀ n : MidiNote, n.on = on → Led p (gend 0 none st.commands).2 (n, l)
  slides : slidesOk false st.commands = true
  out : List.Forall₂ (Led p) (glides 0 none st.commands) done

theorem leading_init (p : Nat) : Leading p {} none [] {} :=
  ⟨rfl, rfl, rfl, Nat.dvd_zero _, by simp, fun _ => rfl, by simp, by simp, by simp, rfl, .nil⟩

theorem led_none (p : Nat) (n : MidiNote) : Led p none (n, none) := ⟨by simp, by simp⟩

/-- A plain command after rests. -/
theorem leading_cut (p : Nat) (s : Port) (o : Option Nat) (done : List (MidiNote × Option Lead)) (st : TrackState) (h : Leading p s o done st) (rs : List PCmd)
    (hrs : ∀ c ∈ rs, c.command = .rest) (c : Command) (hc : c ≠ .rest ∧ c ≠ .tie ∧ (∀ n, c ≠ .note n) ∧ (∀ a b d, c ≠ .pitchSlide a b d)) (e : Nat) (he : p / 24 ∣ e) :
    Leading p s.cut o done { st with commands := st.commands ++ rs ++ [plainCmd c], lastNoteEnd := e } := by
  obtain ⟨g1, -⟩ := glides_rests rs hrs (gend 0 none st.commands).1 (gend 0 none st.commands).2
  have gc : ∀ l g, glides l g [plainCmd c] = [] ∧ gend l g [plainCmd c] = (l, none) := by
    intro l g
    obtain ⟨h1, h2, h3, h4⟩ := hc
    cases c <;> simp_all [plainCmd, glides, gend]
  have e1 : (gend 0 none (st.commands ++ rs ++ [plainCmd c])).2 = none := by rw [gend_append, (gc _ _).2]
  refine ⟨h.on, h.ticks, ?_, he, h.dvdStart, fun _ => e1, ?_, ?_, ?_, ?_, ?_⟩
  · rw [h.isOpen]; simp [Port.cut, Function.comp_def]
  · simp [Port.cut]
  · intro _ _ x hx
    simp only [List.getLast?_concat, Option.some.injEq] at hx
    subst hx
    rfl
  · intro on v l hl n _
    simp only [Port.cut, Option.map_eq_some_iff, Prod.mk.injEq] at hl
    obtain ⟨-, -, -, -, rfl⟩ := hl
    simp only [e1]
    exact led_none p n
  · simp only
    rw [List.append_assoc, slidesOk_append, h.slides, Bool.true_and]
    apply slidesOk_none
    intro x hx
    rcases List.mem_append.1 hx with hx | hx
    · simp [PCmd.isSlide, hrs x hx]
    · simp only [List.mem_singleton] at hx
      subst hx
      obtain ⟨h1, h2, h3, h4⟩ := hc
      cases c <;> simp_all [plainCmd, PCmd.isSlide]
  · simp only [glides_append, g1, (gc _ _).1, List.append_nil]
    exact h.out


/-- A note-on. -/
theorem leading_on (p : Nat) (h24 : 24 ∣ p) (s : Port) (done : List (MidiNote × Option Lead)) (st : TrackState) (h : Leading p s none done st) (t q : Nat) (v n : UInt8)
    (hp : 0 < p) (hq : (t ≤ st.lastNoteEnd → q = 0) ∧ (st.lastNoteEnd < t → q * p ≤ 24 * (t - st.lastNoteEnd) ∧ 24 * (t - st.lastNoteEnd) < q * p + p)) :
    Leading p { s with last := none, held := some (t, v, if s.on then s.last.map (⟨·, s.ticks⟩) else none) } (some t) done { st with
        commands := st.commands ++ restsOf (splitLength q (q * p / 24)) ++ (if st.portamento then ((st.commands ++ restsOf (splitLength q (q * p / 24))).getLast?.bind fun c =>
          c.createPitchSlide (splitLength (exactLength st.portTime p true) (exactLength st.portTime p true * p / 24)).length (n + 0x68)).toList else [])
        lastNoteEnd := st.lastNoteEnd + q * p / 24, noteStart := some (st.lastNoteEnd + q * p / 24), noteVelocity := v } := by
  have hh : s.held = none := by
    have := h.isOpen
    cases hs : s.held with
    | none => rfl
    | some x => rw [hs] at this; cases this
  obtain ⟨U, rfl⟩ := h24
  have hU : 24 * U / 24 = U := by omega
  have hdv : 24 * U / 24 ∣ st.lastNoteEnd + q * (24 * U) / 24 := by
    have e : q * (24 * U) / 24 = U * q := by
      rw [show q * (24 * U) = 24 * (U * q) by ring]; omega
    rw [hU, e]
    exact (Nat.dvd_add_left (Dvd.intro _ rfl)).2 (hU ▸ h.dvd)
  generalize hrs : restsOf (splitLength q (q * (24 * U) / 24)) = rs
  have hrest : ∀ c ∈ rs, c.command = .rest := by rw [← hrs]; exact restsOf_command _
  have hempty : rs = [] ↔ q = 0 := by rw [← hrs]; exact restsOf_empty _ _
  generalize hsl : (if st.portamento then ((st.commands ++ rs).getLast?.bind fun c =>
          c.createPitchSlide (splitLength (exactLength st.portTime (24 * U) true) (exactLength st.portTime (24 * U) true * (24 * U) / 24)).length (n + 0x68)).toList else []) = sl
  obtain ⟨g1, g2⟩ := glides_rests rs hrest (gend 0 none st.commands).1 (gend 0 none st.commands).2
  -- the slide
  have key : slidesOk ((((st.commands ++ rs).getLast?).map canSlide).getD false) sl = true ∧ (∀ l g, glides l g sl = []) ∧
      ∀ m : MidiNote, m.on = t → Led (24 * U) (gend 0 none (st.commands ++ rs ++ sl)).2 (m, if s.on then s.last.map (⟨·, s.ticks⟩) else none) := by
    have e0 : (gend 0 none (st.commands ++ rs)).2 = none := by
      rw [gend_append]
      by_cases h0 : rs = []
      · subst h0; exact h.idle hh
      · exact g2 h0
    have nosl : sl = [] → (∀ l, (if s.on then s.last.map (fun x => (⟨x, s.ticks⟩ : Lead)) else none) = some l → ¬ Legato (24 * U) l.off t) →
        slidesOk ((((st.commands ++ rs).getLast?).map canSlide).getD false) sl = true ∧ (∀ l g, glides l g sl = []) ∧
        ∀ m : MidiNote, m.on = t → Led (24 * U) (gend 0 none (st.commands ++ rs ++ sl)).2 (m, if s.on then s.last.map (⟨·, s.ticks⟩) else none) := by
      rintro rfl hno
      refine ⟨rfl, fun _ _ => rfl, ?_⟩
      rintro m rfl
      rw [List.append_nil, e0]
      refine ⟨⟨by simp, ?_⟩, by simp⟩
      rintro ⟨l, h1, h2⟩
      exact absurd h2 (hno l h1)
    have lastRest : rs ≠ [] → sl = [] := by
      intro h0
      rw [← hsl, List.getLast?_append_of_ne_nil _ h0]
      split_ifs
      · rcases hl : rs.getLast? with _ | c
        · rfl
        · have := hrest c (List.mem_of_getLast? hl)
          simp [PCmd.createPitchSlide, this]
      · rfl
    rw [h.on] at hsl
    cases hon : s.on with
    | false =>
      rw [hon] at hsl nosl
      exact nosl (by simpa using hsl.symm) (by simp)
    | true =>
      rw [hon] at hsl nosl
      simp only [if_true] at hsl nosl ⊢
      cases hlast : s.last with
      | none =>
        rw [hlast] at nosl
        refine nosl ?_ (by simp)
        by_cases h0 : rs = []
        · subst h0
          rw [← hsl, List.append_nil]
          rcases hl : st.commands.getLast? with _ | c
          · rfl
          · have := h.first hh hlast c hl
            simp only [Option.bind_some, PCmd.createPitchSlide, this, Option.map_none]
            split <;> rfl
        · exact lastRest h0
      | some off =>
        rw [hlast] at nosl
        obtain ⟨-, c, d, h1, h2, h3, h4, h5⟩ := h.last off hlast
        have hleg : Legato (24 * U) off t ↔ q = 0 := by
          unfold Legato
          generalize (24 * off + 24 * U - 1) / (24 * U) = k at h5 ⊢
          rw [← Nat.lt_succ_iff, Nat.div_lt_iff_lt_mul hp, Nat.succ_eq_add_one]
          obtain ⟨q1, q2⟩ := hq
          have r1 : (k + 1) * (24 * U) = 24 * U * k + 24 * U := by ring
          rw [r1, ← h5]
          constructor
          · intro hlt
            by_contra h0
            have h6 := q2 (by by_contra h7; exact h0 (q1 (by omega)))
            have : 1 * (24 * U) ≤ q * (24 * U) := Nat.mul_le_mul_right _ (by omega)
            omega
          · intro h0
            subst h0
            rcases Nat.lt_or_ge st.lastNoteEnd t with h6 | h6
            · have := q2 h6; omega
            · omega
        by_cases h0 : q = 0
        · have h0' := hempty.2 h0
          subst h0'
          rw [List.append_nil, h1] at hsl
          have hsl' : sl = [⟨none, none, none, .pitchSlide (d - min (splitLength (exactLength st.portTime (24 * U) true) (exactLength st.portTime (24 * U) true * (24 * U) / 24)).length d)
              (splitLength (exactLength st.portTime (24 * U) true) (exactLength st.portTime (24 * U) true * (24 * U) / 24)).length (n + 0x68)⟩] := by
            rw [← hsl]
            simp only [Option.bind_some, PCmd.createPitchSlide, h2, Option.map_some]
            split
            · rename_i hc
              simp [canSlide, hc] at h3
            · rfl
          subst hsl'
          rw [List.append_nil]
          refine ⟨by simp [h1, h3, slidesOk], fun _ _ => rfl, ?_⟩
          rintro m rfl
          rw [gend_append]
          simp only [gend]
          have hx := slideUnits_split (24 * U) st.portTime (exactLength st.portTime (24 * U) true * (24 * U) / 24)
          refine ⟨⟨fun _ => ⟨_, rfl, hleg.2 h0⟩, fun _ => rfl⟩, ?_⟩
          rintro x l hx1 hx2
          simp only [Option.some.injEq, Option.map_some] at hx1 hx2
          subst hx1 hx2
          simp only [h4]
          refine ⟨by rw [hx, h.ticks], ?_⟩
          generalize (splitLength (exactLength st.portTime (24 * U) true) (exactLength st.portTime (24 * U) true * (24 * U) / 24)).length = y
          have hm : (min y d).toNat = min y.toNat d.toNat := by
            show (if y ≤ d then y else d).toNat = _
            split_ifs with hle <;> rw [UInt8.le_iff_toNat_le] at hle <;> omega
          rw [UInt8.toNat_sub_of_le _ _ (by rw [UInt8.le_iff_toNat_le, hm]; omega), hm]
          omega
        · refine nosl (lastRest (fun h6 => h0 (hempty.1 h6))) ?_
          intro l hl
          simp only [Option.map_some, Option.some.injEq] at hl
          subst hl
          rw [hleg]
          exact h0
  obtain ⟨k1, k2, k3⟩ := key
  refine ⟨h.on, h.ticks, rfl, hdv, ?_, by simp, by simp, by simp, ?_, ?_, ?_⟩
  · intro x hx
    simp only [Option.some.injEq] at hx
    subst hx
    exact hdv
  · intro on v' l hl m hm
    simp only [Option.some.injEq, Prod.mk.injEq] at hl
    obtain ⟨rfl, -, rfl⟩ := hl
    exact k3 m hm
  · simp only
    rw [slidesOk_append, k1, Bool.and_true, slidesOk_append, h.slides, Bool.true_and]
    apply slidesOk_none
    intro c hc
    simp [PCmd.isSlide, hrest c hc]
  · simp only [glides_append, g1, k2, List.append_nil]
    exact h.out

/-- A note-off. -/
theorem leading_off (p : Nat) (h24 : 24 ∣ p) (hp : 0 < p) (s : Port) (on : Nat) (v : UInt8) (l : Option Lead) (o : Option Nat) (done : List (MidiNote × Option Lead)) (st : TrackState) (h : Leading p s o done st)
    (hh : s.held = some (on, v, l)) (x t q : Nat) (hx : st.noteStart = some x) (hxt : x ≤ t) (hq1 : q * p < 24 * (t - x) + p) (hq2 : 24 * (t - x) ≤ q * p) (n : UInt8) :
    Leading p { s with last := some t, held := none } none (done ++ [(⟨on, t, n, v⟩, l)]) { st with
        commands := st.commands ++ noteGroup (if (st.commands.getLast?).any PCmd.isSlide then Command.tie else .note (n + 0x68)) st.noteVelocity (splitLength q (q * p / 24))
        lastNoteEnd := x + q * p / 24
        noteStart := none } := by
  obtain ⟨U, rfl⟩ := h24
  have hU : 24 * U / 24 = U := by omega
  have e : q * (24 * U) / 24 = U * q := by
    rw [show q * (24 * U) = 24 * (U * q) by ring]; omega
  have hdx := h.dvdStart x hx
  rw [hU] at hdx
  generalize hcmd : (if (st.commands.getLast?).any PCmd.isSlide then Command.tie else .note (n + 0x68)) = cmd
  obtain ⟨g1, g2, c, dd, g3, g4, g5, g6⟩ := glides_group cmd st.noteVelocity (splitLength q (q * (24 * U) / 24)) (gend 0 none st.commands).1 (gend 0 none st.commands).2 (by
    rw [gend_last] at hcmd
    rcases hg : (gend 0 none st.commands).2 with _ | g
    · rw [hg] at hcmd; exact .inl ⟨rfl, _, by simpa using hcmd.symm⟩
    · rw [hg] at hcmd; exact .inr ⟨rfl, by simpa using hcmd.symm⟩)
  have hne : noteGroup cmd st.noteVelocity (splitLength q (q * (24 * U) / 24)) ≠ [] := by intro h0; rw [h0] at g3; cases g3
  refine ⟨h.on, h.ticks, rfl, ?_, by simp, fun _ => by simp only [gend_append]; exact g2, ?_, by simp, by simp, ?_, ?_⟩
  · simp only [hU, e]
    exact (Nat.dvd_add_left (Dvd.intro _ rfl)).2 hdx
  · rintro off hoff
    simp only [Option.some.injEq] at hoff
    subst hoff
    refine ⟨rfl, c, dd, ?_, g4, g5, ?_, ?_⟩
    · simp only [List.getLast?_append_of_ne_nil _ hne, g3]
    · simp only [gend_append, g6]
    · simp only [e]
      obtain ⟨x0, rfl⟩ := hdx
      have : (24 * t + 24 * U - 1) / (24 * U) = x0 + q := by
        have r1 : q * (24 * U) = 24 * (U * q) := by ring
        have r2 : (x0 + q) * (24 * U) = 24 * (U * x0) + 24 * (U * q) := by ring
        have r3 : (x0 + q + 1) * (24 * U) = 24 * (U * x0) + 24 * (U * q) + 24 * U := by ring
        apply Nat.div_eq_of_lt_le
        · rw [r2]; omega
        · rw [r3]; omega
      rw [this]
      ring
  · simp only
    rw [slidesOk_append, h.slides, Bool.true_and]
    apply slidesOk_none
    intro y hy
    unfold noteGroup at hy
    rcases List.mem_cons.1 hy with rfl | hy
    · rw [← hcmd]
      simp only [PCmd.isSlide]
      split_ifs <;> rfl
    · simp only [noteTies, List.mem_map] at hy
      obtain ⟨i, -, rfl⟩ := hy
      rfl
  · simp only [glides_append, g1]
    exact List.rel_append h.out (.cons (h.held on v l hh _ rfl) .nil)

/-- One event. -/
theorem leading_step (p G T : Nat) (f : F32) (hp : 0 < p) (hp2 : p < 65536) (h24 : 24 ∣ p) (hG : G + 3525 ≤ exactTicks p) (hT : T < 2 ^ 31) (now adv : Nat) (o : Option Nat)
    (st st' : TrackState) (ev : Message × Nat) (evs : List (Message × Nat)) (hv : voiceOk p G T now adv o (ev :: evs) = true)
    (hs : Safe p now adv o st) (s : Port) (done : List (MidiNote × Option Lead)) (hl : Leading p s o done st) (hst : trackStep p f st ev = .ok st') :
    ∃ s' done', Leading p s' (openAfter o ev) (done ++ done') st' ∧ leads s (ev :: evs) = done' ++ leads s' evs := by
  obtain ⟨m, t⟩ := ev
  have hlag := hs.lag
  have same : st' = st → openAfter o (m, t) = o → leads s ((m, t) :: evs) = leads s evs → ∃ s' done', Leading p s' (openAfter o (m, t)) (done ++ done') st' ∧ leads s ((m, t) :: evs) = done' ++ leads s' evs := by
    rintro rfl h1 h2
    exact ⟨s, [], by rw [h1, List.append_nil]; exact hl, h2⟩
  have plain : ∀ c : Command, c ≠ .rest ∧ c ≠ .tie ∧ (∀ n, c ≠ .note n) ∧ (∀ a b d, c ≠ .pitchSlide a b d) → st' = { st with commands := st.commands ++ [plainCmd c] } →
      openAfter o (m, t) = o → leads s ((m, t) :: evs) = leads s.cut evs → ∃ s' done', Leading p s' (openAfter o (m, t)) (done ++ done') st' ∧ leads s ((m, t) :: evs) = done' ++ leads s' evs := by
    rintro c hc rfl h1 h2
    refine ⟨s.cut, [], ?_, h2⟩
    rw [h1, List.append_nil]
    have := leading_cut p s o done st hl [] (by simp) c hc st.lastNoteEnd hl.dvd
    simpa using this
  rcases m with ⟨dl, e, data⟩ | ⟨dl, e⟩ | ⟨dl, data⟩ | _
  · rcases e with _ | k
    · simp only [trackStep, res_bind, res_pure] at hst
      obtain ⟨u, hu, hst⟩ := hst
      exact plain _ (by simp) hst.symm rfl rfl
    · simp only [trackStep, Except.ok.injEq] at hst
      exact same hst.symm rfl rfl
  · rcases e with ⟨ch, n, v⟩ | ⟨ch, n, v⟩ | ⟨ch, n, v⟩ | ⟨ch, c, d⟩ | ⟨ch, pr⟩ | ⟨ch, pr⟩ | ⟨ch, x⟩ | ⟨ch⟩
    · simp only [voiceOk, Bool.and_eq_true, decide_eq_true_eq] at hv
      obtain ⟨⟨h1, h2⟩, hn, hv⟩ := hv
      have hn' : n.toNat ≤ 127 := by simpa [UInt8.le_iff_toNat_le] using hn
      have hopen := hl.isOpen
      rcases o with _ | on
      · have h0 : st.noteStart = none := hs.idle rfl
        have hh : s.held = none := by
          cases hx : s.held with
          | none => rfl
          | some x => rw [hx] at hopen; cases hopen
        simp only [trackStep, trackNoteOff, h0, Except.ok.injEq] at hst
        exact same hst.symm rfl (by simp [leads, hh])
      · obtain ⟨ho1, x, hss, hsb, hsb2⟩ := hs.busy on rfl
        simp only [Bool.and_eq_true, decide_eq_true_eq] at hv
        obtain ⟨⟨hlen, hgap⟩, h4⟩ := hv
        obtain ⟨cmd, hcmd, q, hq1, hq2, hstep⟩ := noteOff_eq p st n t x (by omega) (by omega) hp hp2 hn' hss (by omega)
        simp only [trackStep] at hst
        rw [hstep, Except.ok.injEq] at hst
        subst hst hcmd
        rcases hh : s.held with _ | ⟨on', v', l⟩
        · rw [hh] at hopen; cases hopen
        · refine ⟨{ s with last := some t, held := none }, [(⟨on', t, n, v'⟩, l)], ?_, by simp [leads, hh]⟩
          exact leading_off p h24 hp s on' v' l _ done st hl hh x t q hss (by omega) hq1 hq2 n
    · simp only [voiceOk, Bool.and_eq_true, decide_eq_true_eq, Option.isNone_iff_eq_none] at hv
      obtain ⟨⟨h1, h2⟩, ⟨⟨⟨ho, hn⟩, hv'⟩, hgap⟩, h4⟩ := hv
      subst ho
      have hn' : n.toNat ≤ 127 := by simpa [UInt8.le_iff_toNat_le] using hn
      obtain ⟨rs, e', hr, hok, ⟨q, rfl, rfl, hq⟩, hmax, hlag'⟩ := insertRest_facts st.commands st.lastNoteEnd t p (by omega) (by omega) hp hp2 hs.cmds
      have hstep := noteOn_slide p st n v t hp hp2 hn' (hs.idle rfl) hs.port _ _ hr
      simp only [trackStep] at hst
      rw [hstep, Except.ok.injEq] at hst
      subst hst
      have hopen := hl.isOpen
      have hh : s.held = none := by
        cases hx : s.held with
        | none => rfl
        | some x => rw [hx] at hopen; cases hopen
      refine ⟨_, [], ?_, by simp only [leads, hh]; rfl⟩
      rw [List.append_nil]
      exact leading_on p h24 s done st hl t q v n hp hq
    · simp only [trackStep, Except.ok.injEq] at hst
      exact same hst.symm rfl rfl
    · simp only [trackStep, trackControl] at hst
      split_ifs at hst with c5 c7 c37 c65
      · subst c5
        simp only [Except.ok.injEq] at hst
        subst hst
        refine ⟨{ s with ticks := d.toNat * 256 + s.ticks % 256 }, [], ?_, by simp [leads]⟩
        rw [List.append_nil]
        exact ⟨hl.on, by simp only [hl.ticks], hl.isOpen, hl.dvd, hl.dvdStart, hl.idle, hl.last, hl.first, hl.held, hl.slides, hl.out⟩
      · subst c7
        simp only [res_bind, res_pure] at hst
        obtain ⟨u, hu, hst⟩ := hst
        exact plain _ (by simp) hst.symm rfl (by simp [leads])
      · subst c37
        simp only [Except.ok.injEq] at hst
        subst hst
        refine ⟨{ s with ticks := s.ticks / 256 * 256 + d.toNat }, [], ?_, by simp [leads]⟩
        rw [List.append_nil]
        exact ⟨hl.on, by simp only [hl.ticks], hl.isOpen, hl.dvd, hl.dvdStart, hl.idle, hl.last, hl.first, hl.held, hl.slides, hl.out⟩
      · subst c65
        simp only [Except.ok.injEq] at hst
        subst hst
        refine ⟨{ s with on := 64 ≤ d }, [], ?_, by simp [leads]⟩
        rw [List.append_nil]
        exact ⟨rfl, hl.ticks, hl.isOpen, hl.dvd, hl.dvdStart, hl.idle, hl.last, hl.first, hl.held, hl.slides, hl.out⟩
      · simp only [Except.ok.injEq] at hst
        exact same hst.symm rfl (by simp [leads, c5, c7, c37, c65])
    · simp only [voiceOk, Bool.and_eq_true, decide_eq_true_eq] at hv
      obtain ⟨⟨h1, h2⟩, ⟨hpr, hgap⟩, h4⟩ := hv
      have hpr' : pr.toNat ≤ 127 := by simpa [UInt8.le_iff_toNat_le] using hpr
      obtain ⟨rs, e', hr, hok, ⟨q, rfl, rfl, hq⟩, hmax, hlag'⟩ := insertRest_facts st.commands st.lastNoteEnd t p (by omega) (by omega) hp hp2 hs.cmds
      obtain ⟨i, hstep⟩ := program_eq p st ch pr t hpr' _ _ hr
      simp only [trackStep] at hst
      rw [hstep, Except.ok.injEq] at hst
      subst hst
      refine ⟨s.cut, [], ?_, rfl⟩
      rw [List.append_nil]
      refine leading_cut p s o done st hl _ (restsOf_command _) _ (by simp) _ ?_
      obtain ⟨U, rfl⟩ := h24
      have hU : 24 * U / 24 = U := by omega
      have e : q * (24 * U) / 24 = U * q := by
        rw [show q * (24 * U) = 24 * (U * q) by ring]; omega
      rw [hU, e]
      exact (Nat.dvd_add_left (Dvd.intro _ rfl)).2 (hU ▸ hl.dvd)
    all_goals
      simp only [trackStep, Except.ok.injEq] at hst
      exact same hst.symm rfl rfl
  all_goals
    simp only [trackStep, Except.ok.injEq] at hst
    exact same hst.symm rfl rfl

theorem leading_loop (p G T : Nat) (f : F32) (hp : 0 < p) (hp2 : p < 65536) (h24 : 24 ∣ p) (hG : G + 3525 ≤ exactTicks p) (hT : T < 2 ^ 31) (evs : List (Message × Nat)) :
    ∀ (now adv : Nat) (o : Option Nat) (st st' : TrackState) (s : Port) (done : List (MidiNote × Option Lead)), voiceOk p G T now adv o evs = true → Safe p now adv o st → Leading p s o done st →
    evs.foldlM (trackStep p f) st = .ok st' →
    slidesOk false st'.commands = true ∧ List.Forall₂ (Led p) (glides 0 none st'.commands) (done ++ leads s evs) := by
  induction evs with
  | nil =>
    intro now adv o st st' s done hv hs hl hst
    simp only [List.foldlM_nil, pure, Except.pure, Except.ok.injEq] at hst
    subst hst
    exact ⟨hl.slides, by simpa [leads] using hl.out⟩
  | cons ev evs ih =>
    intro now adv o st st' s done hv hs hl hst
    obtain ⟨st1, h1, h2, h3, -⟩ := safe_step p G T f hp hp2 hG hT now adv o st ev evs hv hs
    obtain ⟨s', done', h4, h5⟩ := leading_step p G T f hp hp2 h24 hG hT now adv o st st1 ev evs hv hs s done hl h1
    simp only [List.foldlM_cons, h1] at hst
    rw [h5, ← List.append_assoc]
    exact ih _ _ _ st1 st' s' _ h3 h2 h4 hst

/-- Fusing notes and rests. -/
theorem glides_fused {a b : List PCmd} (h : Fused a b) : ∀ ok, slidesOk ok a = true → ∀ x g, glides x g a = glides x g b := by
  induction h with
  | nil => intro ok _ x g; rfl
  | keep c h ih =>
    intro ok hok x g
    simp only [slidesOk, Bool.and_eq_true] at hok
    have ih := ih _ hok.2
    obtain ⟨d, v, s, cmd⟩ := c
    cases cmd <;> simp only [glides, ih]
  | fuse p dn dr s dt vn sn vr sr h1 h2 h3 h4 h ih =>
    intro ok hok x g
    simp only [slidesOk, canSlide, Bool.and_eq_true] at hok
    obtain ⟨-, -, hok⟩ := hok
    simp only [glides]
    rw [← ih _ hok]
    congr 1
    exact glides_length _ hok _ _


/-! ## What is heard -/

open Nspc

theorem slurs_timing (l : List Ev) : ∀ t last o, slurs t last o (l.map Ev.timing) = slurs t last o l := by
  induction l with
  | nil => intros; rfl
  | cons e l ih =>
    intro t last o
    cases e <;> rcases o with _ | ⟨p, g⟩ <;> simp only [List.map_cons, Ev.timing, slurs, ih]

theorem slurs_preamble (parts : List (List Nat)) (i t : Nat) (evs : List Ev) :
    slurs t 0 none ((preambleFor parts i).map (fun c => Ev.cmd (encodeCmd noAddr c).1 (encodeCmd noAddr c).2) ++ evs) = slurs t 0 none evs := by
  unfold preambleFor
  split_ifs <;> rfl

theorem slurs_pitches (l : List Ev) : ∀ t last o, (slurs t last o l).map (fun x => (x.1, x.2.1)) = heardPitches t (o.map (·.1)) l := by
  induction l with
  | nil => intros; rfl
  | cons e l ih =>
    intro t last o
    cases e with
    | cmd op args =>
      simp only [slurs, heardPitches, ih]
      congr 1
      split <;> split <;> simp_all
    | _ => rcases o with _ | ⟨p, g⟩ <;> simp only [slurs, heardPitches, ih, List.map_cons, Option.map_none, Option.map_some]

theorem slurs_intended (addr : Nat → UInt8 × UInt8) (cs : List PCmd) (h1 : ∀ c ∈ cs, Shaped c) (h2 : ∀ c ∈ cs, ∀ d ∈ c.duration, 0 < d) :
    ∀ (t last : Nat) (o : Option (UInt8 × Glide)) (dur vel sus : UInt8), (slurs t last o (intended addr cs dur vel sus)).map (·.2.2) = glides last (o.map (·.2)) cs := by
  induction cs with
  | nil => intros; rfl
  | cons c cs ih =>
    intro t last o dur vel sus
    have ih := ih (fun x hx => h1 x (List.mem_cons_of_mem _ hx)) (fun x hx => h2 x (List.mem_cons_of_mem _ hx))
    have hs := h1 c List.mem_cons_self
    have hd := h2 c List.mem_cons_self
    cases hc : c.command
    case note n =>
      obtain ⟨d, e⟩ := hs.timed (by rw [hc]; rfl)
      have h0 : d ≠ 0 := by rintro rfl; exact absurd (hd 0 e) (by decide)
      simp only [intended, glides, hc, slurs, List.map_cons]
      simp only [e, asked, h0, if_false, Option.getD_some, ih]
      simp [units, e]
    case tie =>
      obtain ⟨d, e⟩ := hs.timed (by rw [hc]; rfl)
      have h0 : d ≠ 0 := by rintro rfl; exact absurd (hd 0 e) (by decide)
      rcases o with _ | ⟨p, g⟩ <;> simp only [intended, glides, hc, slurs] <;>
        simp only [e, asked, h0, if_false, Option.getD_some, ih, List.map_cons] <;> simp [units, e]
    case rest =>
      obtain ⟨d, e⟩ := hs.timed (by rw [hc]; rfl)
      have h0 : d ≠ 0 := by rintro rfl; exact absurd (hd 0 e) (by decide)
      rcases o with _ | ⟨p, g⟩ <;> simp only [intended, glides, hc, slurs] <;>
        simp only [e, asked, h0, if_false, Option.getD_some, ih] <;> simp [units, e]
    all_goals
      simp only [intended, glides, hc, slurs, encodeCmd, ih]
      try rfl

theorem insertRest_allRests (cs rs : List PCmd) (e t p e' : Nat) (h : insertRest cs e t p = .ok (cs ++ rs, e')) : ∀ c ∈ rs, c.command = .rest := by
  unfold insertRest at h
  split_ifs at h
  · simp only [res_bind, res_pure, Prod.mk.injEq] at h
    obtain ⟨d, hd, t', ht', h1, rfl⟩ := h
    have : rs = restsOf d := by
      apply List.append_cancel_left (as := cs)
      rw [← h1]
      unfold restsOf
      split_ifs <;> simp
    rw [this]
    exact restsOf_command d
  · simp only [res_pure, Prod.mk.injEq] at h
    have : rs = [] := by simpa using h.1
    subst this
    simp

/-- The slides of a converted voice. -/
theorem trackNew_glides (evs : List (Message × Nat)) (p G T : Nat) (f : F32) (hp : 0 < p) (hp2 : p < 65536) (h24 : 24 ∣ p) (hG : G + 3525 ≤ exactTicks p)
    (hT : T < 2 ^ 31) (hv : voiceOk p G T 0 0 none evs = true) (cs : List PCmd) (h : trackNew evs p T f = .ok cs) :
    List.Forall₂ (Led p) (glides 0 none cs) (leads {} evs) := by
  obtain ⟨st, cs0, cs', h1, h2, h3, h4, -⟩ := trackNew_state evs p G T f hp hp2 hG hT hv
  rw [h] at h3
  injection h3 with h3
  subst h3
  obtain ⟨k1, k2⟩ := leading_loop p G T f hp hp2 h24 hG hT evs 0 0 none {} st {} [] hv (safe_init p hp) (leading_init p) h1
  rw [List.nil_append] at k2
  rcases h2 with ⟨e1, rfl⟩ | ⟨-, e', e2⟩
  · rw [e1] at k2
    rw [← glides_fused h4 false rfl]
    exact k2
  · obtain ⟨rs, rfl, hrs, -⟩ := insertRest_shape _ _ _ _ _ _ e2
    have hr : slidesOk false (st.commands ++ rs) = true := by
      rw [slidesOk_append, k1, Bool.true_and]
      exact slidesOk_none _ (fun c hc => (hrs c hc).2) _
    rw [← glides_fused h4 false hr, glides_append, (glides_rests rs (insertRest_allRests _ _ _ _ _ _ e2) _ _).1, List.append_nil]
    exact k2

end M2S
