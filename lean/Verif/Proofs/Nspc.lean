import Verif.Spec.Nspc
import Verif.Song
/-
Helper lemmas on the byte encoding of tracks.
-/
namespace M2S.Nspc

/-- A byte predicate holding for all 256 bytes. -/
theorem forall_u8 {p : UInt8 → Prop} (h : ∀ n : Fin 256, p (UInt8.ofFin n)) (b : UInt8) : p b := by
  have := h b.toFin
  rwa [UInt8.ofFin_toFin] at this

/-- Bytes of a command with resolved CallLoop address. -/
def cmdBytes (addr : Nat → UInt8 × UInt8) (c : Command) : List UInt8 := (encodeCmd addr c).1 :: (encodeCmd addr c).2

/-- The placeholder address the writer emits. -/
def placeholder : Nat → UInt8 × UInt8 := fun _ => (0x00, 0xd0)

theorem write_bytes (c : Command) (o : Out) : (c.write o).bytes = o.bytes ++ cmdBytes placeholder c := by
  cases c <;> simp [Command.write, Out.put, cmdBytes, encodeCmd, placeholder]

/-- The references of one command written at a given position. -/
def cmdRefs (c : Command) (pos : Nat) : List CallLoopRef :=
  match c with
  | .callLoop t _ => [⟨t, pos + 1⟩]
  | _ => []

theorem write_refs (c : Command) (o : Out) : (c.write o).refs = o.refs ++ cmdRefs c o.bytes.length := by
  cases c <;> simp [Command.write, Out.put, cmdRefs]

/-- The new duration written before a command. -/
def durToWrite (c : PCmd) (d : UInt8) : Option UInt8 :=
  match c.duration with
  | some d' => if d' ≠ d then (if d' > 0 then some d' else none) else none
  | none => none

/-- The duration byte and the velocity/sustain byte written before a command. -/
def preParts (c : PCmd) (d : UInt8) (vs : Option UInt8) : Option UInt8 × Option UInt8 :=
  let vsToWrite : Option UInt8 :=
    match c.velSus vs with
    | some v => if vs = none ∨ vs ≠ some v then some v else none
    | none => if vs = none then (if c.command.isNote then some 0x7d else none) else none
  (match durToWrite c d with
   | some d' => some d'
   | none => if vsToWrite.isSome then some d else none, vsToWrite)

/-- Writer state after a command. -/
def nextVS (c : PCmd) (vs : Option UInt8) : Option UInt8 :=
  match c.velSus vs with
  | some v => some v
  | none => if vs = none then (if c.command.isNote then some 0x7d else none) else vs

def preBytes (c : PCmd) (d : UInt8) (vs : Option UInt8) : List UInt8 :=
  (preParts c d vs).1.toList ++ (preParts c d vs).2.toList

theorem pwrite_eq (c : PCmd) (o : Out) (d : UInt8) (vs : Option UInt8) :
    c.write o d vs = (c.command.write (o.put (preBytes c d vs)), c.duration.getD d, nextVS c vs) := by
  unfold PCmd.write preBytes preParts nextVS durToWrite
  cases hv : c.velSus vs with
  | none =>
    cases c.duration <;> simp only [] <;> split_ifs <;> simp_all [Out.put]
  | some v =>
    cases c.duration <;> simp only [] <;> split_ifs <;> simp_all [Out.put]

def encBytes (addr : Nat → UInt8 × UInt8) : List PCmd → UInt8 → Option UInt8 → List UInt8
  | [], _, _ => []
  | c :: cs, d, vs => preBytes c d vs ++ cmdBytes addr c.command ++ encBytes addr cs (c.duration.getD d) (nextVS c vs)

def encRefs : List PCmd → UInt8 → Option UInt8 → Nat → List CallLoopRef
  | [], _, _, _ => []
  | c :: cs, d, vs, pos =>
    cmdRefs c.command (pos + (preBytes c d vs).length) ++
      encRefs cs (c.duration.getD d) (nextVS c vs)
        (pos + (preBytes c d vs).length + (cmdBytes placeholder c.command).length)

theorem writeCmds_bytes (cs : List PCmd) (o : Out) (d : UInt8) (vs : Option UInt8) :
    (writeCmds cs o d vs).bytes = o.bytes ++ encBytes placeholder cs d vs := by
  induction cs generalizing o d vs with
  | nil => simp [writeCmds, encBytes]
  | cons c cs ih =>
    simp only [writeCmds, pwrite_eq, ih, write_bytes, Out.put, encBytes, List.append_assoc]

theorem writeCmds_refs (cs : List PCmd) (o : Out) (d : UInt8) (vs : Option UInt8) :
    (writeCmds cs o d vs).refs = o.refs ++ encRefs cs d vs o.bytes.length := by
  induction cs generalizing o d vs with
  | nil => simp [writeCmds, encRefs]
  | cons c cs ih =>
    simp only [writeCmds, pwrite_eq, ih, write_refs, write_bytes, Out.put, encRefs, List.append_assoc,
      List.length_append, Nat.add_assoc]

theorem cmdBytes_length (addr : Nat → UInt8 × UInt8) (c : Command) :
    (cmdBytes addr c).length = (cmdBytes placeholder c).length := by
  cases c <;> simp [cmdBytes, encodeCmd]

theorem patch_cmd (addr : Nat → UInt8 × UInt8) (c : Command) (p tail : List UInt8) :
    (cmdRefs c p.length).foldl (patchOne addr) (p ++ cmdBytes placeholder c ++ tail) = p ++ cmdBytes addr c ++ tail := by
  cases c <;> simp [cmdRefs, cmdBytes, encodeCmd, patchOne, List.set_append]
  rw [if_neg (by omega), show p.length + 1 + 1 - p.length = 2 by omega]
  rfl

theorem patch_enc (addr : Nat → UInt8 × UInt8) (cs : List PCmd) (p tail : List UInt8) (d : UInt8) (vs : Option UInt8) :
    (encRefs cs d vs p.length).foldl (patchOne addr) (p ++ encBytes placeholder cs d vs ++ tail) =
      p ++ encBytes addr cs d vs ++ tail := by
  induction cs generalizing p d vs with
  | nil => simp [encRefs, encBytes]
  | cons c cs ih =>
    simp only [encRefs, encBytes, List.foldl_append]
    have h1 := patch_cmd addr c.command (p ++ preBytes c d vs)
      (encBytes placeholder cs (c.duration.getD d) (nextVS c vs) ++ tail)
    have h2 := ih (p ++ preBytes c d vs ++ cmdBytes addr c.command) (c.duration.getD d) (nextVS c vs)
    simp only [List.length_append, cmdBytes_length addr, List.append_assoc] at h1 h2 ⊢
    rw [h1, Nat.add_assoc, h2]

/-! ### Parsing -/

def cmdTok (addr : Nat → UInt8 × UInt8) (c : Command) : Tok :=
  match c with
  | .note n => .note n
  | .tie => .tie
  | .rest => .rest
  | c => .cmd (encodeCmd addr c).1 (encodeCmd addr c).2

def preTok (c : PCmd) (d : UInt8) (vs : Option UInt8) : List Tok :=
  match preParts c d vs with
  | (some d, v) => [.dur d v]
  | (none, _) => []

def encToks (addr : Nat → UInt8 × UInt8) : List PCmd → UInt8 → Option UInt8 → List Tok
  | [], _, _ => []
  | c :: cs, d, vs => preTok c d vs ++ cmdTok addr c.command :: encToks addr cs (c.duration.getD d) (nextVS c vs)

theorem nextTok_cmd (addr : Nat → UInt8 × UInt8) (c : Command) (h : GoodCommand c) (rest : List UInt8) :
    nextTok (cmdBytes addr c ++ rest) = some (cmdTok addr c, rest) := by
  cases c
  case note n =>
    simp only [GoodCommand] at h
    have h0 : ¬ n = 0 := by
      rintro rfl; simp at h
    have h1 : ¬ n < 0x80 := by simpa using h.1
    simp [cmdBytes, encodeCmd, cmdTok, nextTok, h0, h1, h.2]
  case channelVolumeFade => exact h.elim
  all_goals simp [cmdBytes, encodeCmd, cmdTok, nextTok, operands, operandTable]

theorem cmd_first (addr : Nat → UInt8 × UInt8) (c : Command) (h : GoodCommand c) :
    ¬ (encodeCmd addr c).1 < 0x80 ∧ (encodeCmd addr c).1 ≠ 0 := by
  cases c
  case note n =>
    simp only [GoodCommand] at h
    refine ⟨by simpa [encodeCmd] using h.1, ?_⟩
    simp only [encodeCmd]; rintro rfl; simp at h
  case channelVolumeFade => exact h.elim
  all_goals simp [encodeCmd]

theorem parse_step (fuel : Nat) (b : UInt8) (bs rest : List UInt8) (t : Tok) (hb : b ≠ 0)
    (h : nextTok (b :: bs) = some (t, rest)) :
    parseFuel (fuel + 1) (b :: bs) = (parseFuel fuel rest).map fun p => (t :: p.1, p.2) := by
  simp only [parseFuel, hb, if_false, h]
  cases parseFuel fuel rest with
  | none => rfl
  | some p => rfl

/-- The velocity/sustain byte. -/
def vsByte (vel sus : UInt8) : UInt8 := (sus <<< 4) ||| vel

theorem vs_vel (vel sus v : UInt8) (h1 : vel < 0x10) (h2 : sus < 0x08) (h3 : v < 0x10) :
    (vsByte vel sus &&& (0x70 : UInt8)) ||| v = vsByte v sus := by
  rw [UInt8.lt_iff_toNat_lt] at h1 h2 h3
  have key : ∀ vel : Fin 16, ∀ sus : Fin 8, ∀ v : Fin 16, (vsByte (UInt8.ofNat vel.val) (UInt8.ofNat sus.val) &&& (0x70 : UInt8)) ||| (UInt8.ofNat v.val) = vsByte (UInt8.ofNat v.val) (UInt8.ofNat sus.val) := by
    decide +kernel
  simpa using key ⟨vel.toNat, h1⟩ ⟨sus.toNat, h2⟩ ⟨v.toNat, h3⟩

theorem vs_sus (vel sus s : UInt8) (h1 : vel < 0x10) (h2 : sus < 0x08) (h3 : s < 0x08) :
    (vsByte vel sus &&& (0x0f : UInt8)) ||| (s <<< 4) = vsByte vel s := by
  rw [UInt8.lt_iff_toNat_lt] at h1 h2 h3
  have key : ∀ vel : Fin 16, ∀ sus : Fin 8, ∀ s : Fin 8, (vsByte (UInt8.ofNat vel.val) (UInt8.ofNat sus.val) &&& (0x0f : UInt8)) ||| ((UInt8.ofNat s.val) <<< 4) = vsByte (UInt8.ofNat vel.val) (UInt8.ofNat s.val) := by
    decide +kernel
  simpa using key ⟨vel.toNat, h1⟩ ⟨sus.toNat, h2⟩ ⟨s.toNat, h3⟩

theorem vs_decode (vel sus : UInt8) (h1 : vel < 0x10) (h2 : sus < 0x08) :
    vsByte vel sus &&& (0x0f : UInt8) = vel ∧ (vsByte vel sus >>> 4) &&& (0x07 : UInt8) = sus ∧ vsByte vel sus < 0x80 := by
  rw [UInt8.lt_iff_toNat_lt] at h1 h2
  have key : ∀ vel : Fin 16, ∀ sus : Fin 8, vsByte (UInt8.ofNat vel.val) (UInt8.ofNat sus.val) &&& (0x0f : UInt8) = (UInt8.ofNat vel.val) ∧ (vsByte (UInt8.ofNat vel.val) (UInt8.ofNat sus.val) >>> 4) &&& (0x07 : UInt8) = (UInt8.ofNat sus.val) ∧ vsByte (UInt8.ofNat vel.val) (UInt8.ofNat sus.val) < 0x80 := by
    decide +kernel
  simpa using key ⟨vel.toNat, h1⟩ ⟨sus.toNat, h2⟩

theorem velSus_eq (c : PCmd) (vs : Option UInt8) (vel sus : UInt8) (h1 : vel < 0x10) (h2 : sus < 0x08)
    (hv : ∀ v ∈ c.velocity, v < 0x10) (hs : ∀ s ∈ c.sustain, s < 0x08) (h : vs.getD 0x7d = vsByte vel sus) :
    c.velSus vs = if (asked c.velocity).isSome ∨ (asked c.sustain).isSome then
      some (vsByte ((asked c.velocity).getD vel) ((asked c.sustain).getD sus)) else none := by
  unfold PCmd.velSus
  rw [h]
  have pos : ∀ x : UInt8, (x > 0) ↔ ¬ x = 0 := by
    intro x; simp [UInt8.lt_iff_toNat_lt, ← UInt8.toNat_inj]; omega
  have z8 : (0 : UInt8) < 0x10 := by decide
  cases hvel : c.velocity with
  | none =>
    cases hsus : c.sustain with
    | none => simp [asked]
    | some s =>
      have hs' : s < 0x08 := hs s (by simp [hsus])
      by_cases hs0 : s = 0
      · simp [asked, hs0]
      · simp [asked, hs0, pos, vs_sus vel sus s h1 h2 hs']
  | some v =>
    have hv' : v < 0x10 := hv v (by simp [hvel])
    cases hsus : c.sustain with
    | none =>
      by_cases hv0 : v = 0
      · simp [asked, hv0]
      · simp [asked, hv0, pos, vs_vel vel sus v h1 h2 hv']
    | some s =>
      have hs' : s < 0x08 := hs s (by simp [hsus])
      by_cases hv0 : v = 0 <;> by_cases hs0 : s = 0
      · simp [asked, hv0, hs0]
      · simp [asked, hv0, hs0, pos, vs_sus vel sus s h1 h2 hs']
      · simp [asked, hv0, hs0, pos, vs_vel vel sus v h1 h2 hv']
      · simp [asked, hv0, hs0, pos, vs_vel vel sus v h1 h2 hv', vs_sus v sus s hv' h2 hs']

/-- Relation between the writer's `velocity_sustain` and the values asked for last. -/
def VSRel (vs : Option UInt8) (vel sus : UInt8) : Prop :=
  vel < 0x10 ∧ sus < 0x08 ∧ vs.getD 0x7d = vsByte vel sus

theorem VSRel.init : VSRel none 13 7 := by unfold VSRel; decide

theorem VSRel.next {c : PCmd} {vs : Option UInt8} {vel sus : UInt8} (h : VSRel vs vel sus)
    (hv : ∀ v ∈ c.velocity, v < 0x10) (hs : ∀ s ∈ c.sustain, s < 0x08) :
    VSRel (nextVS c vs) ((asked c.velocity).getD vel) ((asked c.sustain).getD sus) := by
  obtain ⟨h1, h2, h3⟩ := h
  have hv' : (asked c.velocity).getD vel < 0x10 := by
    cases hvel : c.velocity with
    | none => simpa [asked]
    | some v => have := hv v (by simp [hvel]); by_cases h0 : v = 0 <;> simpa [asked, h0]
  have hs' : (asked c.sustain).getD sus < 0x08 := by
    cases hsus : c.sustain with
    | none => simpa [asked]
    | some v => have := hs v (by simp [hsus]); by_cases h0 : v = 0 <;> simpa [asked, h0]
  refine ⟨hv', hs', ?_⟩
  unfold nextVS
  rw [velSus_eq c vs vel sus h1 h2 hv hs h3]
  by_cases ha : (asked c.velocity).isSome ∨ (asked c.sustain).isSome
  · simp [ha]
  · simp only [ha, if_false]
    have ha1 : asked c.velocity = none := by simpa using fun h => ha (Or.inl h)
    have ha2 : asked c.sustain = none := by simpa using fun h => ha (Or.inr h)
    rw [ha1, ha2]
    cases vs with
    | some v => simpa using h3
    | none =>
      split_ifs <;> simpa using h3

theorem pos_iff (x : UInt8) : x > 0 ↔ ¬ x = 0 := by
  simp [UInt8.lt_iff_toNat_lt, ← UInt8.toNat_inj]; omega

/-- The conditions `Encodable` puts on the first command. -/
def HeadOk (d : UInt8) (c : PCmd) : Prop :=
  GoodCommand c.command ∧
  (∀ d ∈ c.duration, d < 0x80) ∧
  (∀ v ∈ c.velocity, v < 0x10) ∧
  (∀ s ∈ c.sustain, s < 0x08) ∧
  ((timed c.command = true ∨ (asked c.velocity).isSome = true ∨ (asked c.sustain).isSome = true) →
    0 < (asked c.duration).getD d ∧ (asked c.duration).getD d < 0x80)

theorem encodable_cons (d : UInt8) (c : PCmd) (cs : List PCmd) :
    Encodable d (c :: cs) ↔ HeadOk d c ∧ Encodable (c.duration.getD d) cs := by
  simp only [Encodable, HeadOk, and_assoc]

theorem isNote_timed (c : Command) (h : c.isNote = true) : timed c = true := by
  cases c <;> simp_all [Command.isNote, timed]

/-- Which bytes are written before a command, in terms of what is asked for. -/
theorem preParts_vs {c : PCmd} {d : UInt8} {vs : Option UInt8} {vel sus : UInt8} (h : HeadOk d c) (hr : VSRel vs vel sus) :
    (preParts c d vs).2 =
      if vs = nextVS c vs then none else nextVS c vs := by
  obtain ⟨h1, h2, h3⟩ := hr
  unfold preParts nextVS
  rw [velSus_eq c vs vel sus h1 h2 h.2.2.1 h.2.2.2.1 h3]
  by_cases ha : (asked c.velocity).isSome ∨ (asked c.sustain).isSome
  · simp only [ha, if_true]
    cases vs with
    | none => simp
    | some v => by_cases hv : v = vsByte ((asked c.velocity).getD vel) ((asked c.sustain).getD sus) <;> simp [hv]
  · simp only [ha, if_false]
    cases vs with
    | none => by_cases hn : c.command.isNote <;> simp [hn]
    | some v => simp

theorem pre_cases {c : PCmd} {d : UInt8} {vs : Option UInt8} {vel sus : UInt8} (h : HeadOk d c) (hr : VSRel vs vel sus) :
    (preParts c d vs = (none, none) ∧ vs = nextVS c vs ∧ (asked c.duration = none ∨ asked c.duration = some d)) ∨
    (∃ d', preParts c d vs = (some d', none) ∧ vs = nextVS c vs ∧ asked c.duration = some d' ∧ 0 < d' ∧ d' < 0x80) ∨
    (∃ d', preParts c d vs = (some d', some (vsByte ((asked c.velocity).getD vel) ((asked c.sustain).getD sus))) ∧
      nextVS c vs = some (vsByte ((asked c.velocity).getD vel) ((asked c.sustain).getD sus)) ∧
      d' = (asked c.duration).getD d ∧ 0 < d' ∧ d' < 0x80) := by
  have hvs := preParts_vs h hr
  have hn := hr.next h.2.2.1 h.2.2.2.1
  by_cases hc : vs = nextVS c vs
  · rw [if_pos hc] at hvs
    have h1 : (preParts c d vs).1 = durToWrite c d := by
      have : (preParts c d vs).1 = (match durToWrite c d with
        | some d' => some d'
        | none => if (preParts c d vs).2.isSome then some d else none) := rfl
      rw [this, hvs]
      cases durToWrite c d <;> rfl
    unfold durToWrite at h1
    cases hd : c.duration with
    | none =>
      left
      refine ⟨?_, hc, by simp [asked]⟩
      rw [hd] at h1
      exact Prod.ext h1 hvs
    | some d' =>
      rw [hd] at h1
      by_cases h0 : d' = 0
      · left
        refine ⟨Prod.ext ?_ hvs, hc, by simp [asked, h0]⟩
        rw [h1, h0]; simp
      · by_cases hdd : d' = d
        · left
          subst hdd
          refine ⟨Prod.ext ?_ hvs, hc, by simp [asked, h0]⟩
          rw [h1]; simp
        · right; left
          refine ⟨d', Prod.ext ?_ hvs, hc, by simp [asked, h0], (pos_iff d').2 h0, h.2.1 d' (by simp [hd])⟩
          rw [h1]; simp [hdd, (pos_iff d').2 h0]
  · right; right
    rw [if_neg hc] at hvs
    have hsome : ∃ v, nextVS c vs = some v := by
      cases hx : nextVS c vs with
      | some v => exact ⟨v, rfl⟩
      | none =>
        exfalso
        apply hc
        rw [hx]
        unfold nextVS at hx
        split at hx
        · simp at hx
        · cases vs with
          | none => rfl
          | some v => simp at hx
    obtain ⟨v, hv⟩ := hsome
    have hvv : v = vsByte ((asked c.velocity).getD vel) ((asked c.sustain).getD sus) := by
      have := hn.2.2
      rw [hv] at this
      simpa using this
    have hask : timed c.command = true ∨ (asked c.velocity).isSome = true ∨ (asked c.sustain).isSome = true := by
      by_contra hcon
      push Not at hcon
      apply hc
      unfold nextVS
      rw [velSus_eq c vs vel sus hr.1 hr.2.1 h.2.2.1 h.2.2.2.1 hr.2.2]
      rw [if_neg (by rintro (h | h); exacts [hcon.2.1 h, hcon.2.2 h])]
      have : ¬ c.command.isNote = true := fun hh => hcon.1 (isNote_timed _ hh)
      cases vs with
      | none => simp [this]
      | some v => simp
    have hdur := h.2.2.2.2 hask
    refine ⟨(asked c.duration).getD d, Prod.ext ?_ (by rw [hvs, hv, hvv]), by rw [hv, hvv], rfl, hdur⟩
    have : (preParts c d vs).1 = (match durToWrite c d with
        | some d' => some d'
        | none => if (preParts c d vs).2.isSome then some d else none) := rfl
    rw [this, hvs, hv]
    unfold durToWrite
    cases hd : c.duration with
    | none => simp [asked]
    | some d' =>
      by_cases h0 : d' = 0
      · simp [asked, h0]
      · by_cases hdd : d' = d
        · subst hdd; simp [asked, h0]
        · simp [asked, h0, hdd, (pos_iff d').2 h0]

theorem cmdBytes_pos (addr : Nat → UInt8 × UInt8) (c : Command) : 0 < (cmdBytes addr c).length := by
  simp [cmdBytes]

theorem parse_cmd (addr : Nat → UInt8 × UInt8) (c : Command) (h : GoodCommand c) (fuel : Nat) (rest : List UInt8) :
    parseFuel (fuel + 1) (cmdBytes addr c ++ rest) = (parseFuel fuel rest).map fun p => (cmdTok addr c :: p.1, p.2) := by
  have h1 := nextTok_cmd addr c h rest
  have h2 := (cmd_first addr c h).2
  unfold cmdBytes at h1 ⊢
  rw [List.cons_append] at h1 ⊢
  exact parse_step fuel _ _ _ _ h2 h1

theorem parse_enc (addr : Nat → UInt8 × UInt8) (cs : List PCmd) (d : UInt8) (vs : Option UInt8) (vel sus : UInt8)
    (hr : VSRel vs vel sus) (hE : Encodable d cs) (fuel : Nat) (extra : List UInt8)
    (hf : (encBytes addr cs d vs).length < fuel) :
    parseFuel fuel (encBytes addr cs d vs ++ 0 :: extra) = some (encToks addr cs d vs, extra) := by
  induction cs generalizing d vs vel sus fuel with
  | nil =>
    cases fuel with
    | zero => simp [encBytes] at hf
    | succ n => simp [encBytes, encToks, parseFuel]
  | cons c cs ih =>
    rw [encodable_cons] at hE
    obtain ⟨hh, hE⟩ := hE
    have hn := hr.next hh.2.2.1 hh.2.2.2.1
    have hlen := cmdBytes_pos addr c.command
    simp only [encBytes, List.length_append] at hf
    have ih' := ih (c.duration.getD d) (nextVS c vs) _ _ hn hE
    simp only [encBytes, encToks, List.append_assoc]
    have hb := cmd_first addr c.command hh.1
    rcases pre_cases hh hr with ⟨hp, -, -⟩ | ⟨d', hp, -, -, h0, h8⟩ | ⟨d', hp, -, -, h0, h8⟩
    · simp only [preBytes, preTok, hp] at hf ⊢
      simp at hf
      obtain ⟨f, rfl⟩ : ∃ f, fuel = f + 1 := ⟨fuel - 1, by omega⟩
      simp only [Option.toList, List.nil_append]
      rw [parse_cmd addr _ hh.1, ih' f (by omega)]
      rfl
    · simp only [preBytes, preTok, hp] at hf ⊢
      simp at hf
      obtain ⟨f, rfl⟩ : ∃ f, fuel = f + 1 + 1 := ⟨fuel - 2, by omega⟩
      have ht : nextTok (d' :: (cmdBytes addr c.command ++ (encBytes addr cs (c.duration.getD d) (nextVS c vs) ++ 0 :: extra)))
          = some (.dur d' none, cmdBytes addr c.command ++ (encBytes addr cs (c.duration.getD d) (nextVS c vs) ++ 0 :: extra)) := by
        have h0' : ¬ d' = 0 := (pos_iff d').1 h0
        have hb1 := hb.1
        simp only [cmdBytes, List.cons_append, nextTok, h0', if_false, h8, if_true]
        rw [if_neg hb1]
      simp only [Option.toList, List.nil_append, List.cons_append]
      rw [parse_step (f + 1) d' _ _ _ ((pos_iff d').1 h0) ht, parse_cmd addr _ hh.1, ih' f (by omega)]
      rfl
    · simp only [preBytes, preTok, hp] at hf ⊢
      simp at hf
      obtain ⟨f, rfl⟩ : ∃ f, fuel = f + 1 + 1 := ⟨fuel - 2, by omega⟩
      have hv8 := (vs_decode _ _ hn.1 hn.2.1).2.2
      have ht : ∀ x : UInt8, x < 0x80 → nextTok (d' :: x :: (cmdBytes addr c.command ++ (encBytes addr cs (c.duration.getD d) (nextVS c vs) ++ 0 :: extra)))
          = some (.dur d' (some x), cmdBytes addr c.command ++ (encBytes addr cs (c.duration.getD d) (nextVS c vs) ++ 0 :: extra)) := by
        intro x hx
        have h0' : ¬ d' = 0 := (pos_iff d').1 h0
        simp only [nextTok, h0', if_false, h8, if_true, hx]
      simp only [Option.toList, List.nil_append, List.cons_append]
      rw [parse_step (f + 1) d' _ _ _ ((pos_iff d').1 h0) (ht _ hv8), parse_cmd addr _ hh.1, ih' f (by omega)]
      rfl

theorem cmdTok_command (addr : Nat → UInt8 × UInt8) (target : UInt8 → UInt8 → Nat) (c : Command) (h : GoodCommand c) :
    (cmdTok addr c).command target = some (retarget (fun t => target (addr t).1 (addr t).2) c) := by
  cases c
  case channelVolumeFade => exact h.elim
  all_goals simp [cmdTok, encodeCmd, Tok.command, retarget]

theorem commands_enc (addr : Nat → UInt8 × UInt8) (target : UInt8 → UInt8 → Nat) (cs : List PCmd) (d : UInt8)
    (vs : Option UInt8) (hE : Encodable d cs) :
    commands target (encToks addr cs d vs) =
      cs.map fun c => retarget (fun t => target (addr t).1 (addr t).2) c.command := by
  induction cs generalizing d vs with
  | nil => rfl
  | cons c cs ih =>
    rw [encodable_cons] at hE
    have hp : commands target (preTok c d vs) = [] := by
      unfold preTok commands
      split <;> simp [Tok.command]
    have ih' := ih (c.duration.getD d) (nextVS c vs) hE.2
    unfold commands at *
    simp only [encToks, List.filterMap_append, hp, List.nil_append, List.filterMap_cons,
      cmdTok_command addr target c.command hE.1.1, ih', List.map_cons]

end M2S.Nspc
