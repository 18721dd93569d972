import Verif.Spec.Engine
import Verif.Spec.Loops
import Verif.Proofs.WriteTrack
/-
Helper lemmas on the engine: items laid out in memory, runs of a channel, subroutines.
-/
namespace M2S.Engine
open Nspc RomSpec

/-- Bytes at an address. -/
def Holds (m : Mem) (p : Nat) (bs : List UInt8) : Prop := ∀ j < bs.length, m (p + j) = bs[j]?

theorem holds_append {m : Mem} {p : Nat} {a b : List UInt8} : Holds m p (a ++ b) ↔ Holds m p a ∧ Holds m (p + a.length) b := by
  constructor
  · intro h
    constructor
    · intro j hj
      rw [h j (by simp; omega), List.getElem?_append_left hj]
    · intro j hj
      rw [Nat.add_assoc, h (a.length + j) (by simp; omega), List.getElem?_append_right (by omega)]
      congr 1; omega
  · rintro ⟨h1, h2⟩ j hj
    by_cases hl : j < a.length
    · rw [List.getElem?_append_left hl, h1 j hl]
    · rw [List.length_append] at hj
      rw [List.getElem?_append_right (by omega), ← h2 (j - a.length) (by omega)]
      congr 1; omega

theorem holds_cons {m : Mem} {p : Nat} {b : UInt8} {bs : List UInt8} : Holds m p (b :: bs) ↔ m p = some b ∧ Holds m (p + 1) bs := by
  constructor
  · intro h
    refine ⟨by simpa using h 0 (by simp), fun j hj => ?_⟩
    have := h (j + 1) (by simp; omega)
    rw [List.getElem?_cons_succ] at this
    rw [← this]; congr 1; omega
  · rintro ⟨h1, h2⟩ j hj
    cases j with
    | zero => simpa using h1
    | succ j =>
      simp only [List.length_cons] at hj
      rw [List.getElem?_cons_succ, ← h2 j (by omega)]
      congr 1; omega

theorem bytesAt_holds {m : Mem} (n : Nat) : ∀ {p : Nat} {bs : List UInt8}, Holds m p bs → n ≤ bs.length → bytesAt m p n = some (bs.take n) := by
  induction n with
  | zero => intro p bs _ _; rfl
  | succ n ih =>
    intro p bs h hn
    cases bs with
    | nil => simp at hn
    | cons b bs =>
      rw [holds_cons] at h
      simp only [List.length_cons] at hn
      simp only [bytesAt, h.1, ih h.2 (by omega), List.take_succ_cons]

theorem itemAt_nextTok {m : Mem} {p : Nat} {bs rest : List UInt8} {t : Tok} (h : Holds m p bs) (ht : nextTok bs = some (t, rest)) :
    m p ≠ some 0 ∧ ∃ n, itemAt m p = some (t, n) ∧ Holds m n rest := by
  cases bs with
  | nil => simp [nextTok] at ht
  | cons b bs =>
    rw [holds_cons] at h
    obtain ⟨hb, h⟩ := h
    unfold nextTok at ht
    unfold itemAt
    rw [hb]
    simp only at ht ⊢
    by_cases h0 : b = 0
    · simp [h0] at ht
    rw [if_neg h0] at ht
    refine ⟨by simpa using h0, ?_⟩
    simp only [h0, if_false]
    by_cases h1 : b < 0x80
    · rw [if_pos h1] at ht
      rw [if_pos h1]
      cases bs with
      | nil => cases ht
      | cons v bs =>
        have h' := h
        rw [holds_cons] at h
        obtain ⟨hv, h⟩ := h
        simp only [hv]
        simp only at ht
        by_cases h2 : v < 0x80
        · rw [if_pos h2] at ht ⊢
          cases ht
          exact ⟨_, rfl, h⟩
        · rw [if_neg h2] at ht ⊢
          cases ht
          exact ⟨_, rfl, h'⟩
    rw [if_neg h1] at ht ⊢
    by_cases h2 : b < 0xc8
    · rw [if_pos h2] at ht ⊢
      cases ht; exact ⟨_, rfl, h⟩
    rw [if_neg h2] at ht ⊢
    by_cases h3 : b = 0xc8
    · rw [if_pos h3] at ht ⊢
      cases ht; exact ⟨_, rfl, h⟩
    rw [if_neg h3] at ht ⊢
    by_cases h4 : b = 0xc9
    · rw [if_pos h4] at ht ⊢
      cases ht; exact ⟨_, rfl, h⟩
    rw [if_neg h4] at ht ⊢
    by_cases h5 : b < 0xe0
    · rw [if_pos h5] at ht ⊢
      cases ht; exact ⟨_, rfl, h⟩
    rw [if_neg h5] at ht ⊢
    cases ho : operands b with
    | none => rw [ho] at ht; cases ht
    | some n =>
      rw [ho] at ht
      simp only at ht ⊢
      by_cases hn : n ≤ bs.length
      · rw [if_pos hn] at ht
        cases ht
        refine ⟨p + 1 + n, by rw [bytesAt_holds n h hn]; rfl, ?_⟩
        have hh : Holds m (p + 1) (bs.take n ++ bs.drop n) := by rw [List.take_append_drop]; exact h
        rw [holds_append, List.length_take, Nat.min_eq_left hn] at hh
        exact hh.2
      · rw [if_neg hn] at ht; cases ht

/-- Items one after the other from `p` up to `q`. -/
def Lays (m : Mem) : Nat → List Tok → Nat → Prop
  | p, [], q => p = q
  | p, t :: ts, q => m p ≠ some 0 ∧ ∃ n, itemAt m p = some (t, n) ∧ Lays m n ts q

theorem lays_append {m : Mem} (a b : List Tok) : ∀ {p q : Nat}, Lays m p (a ++ b) q ↔ ∃ x, Lays m p a x ∧ Lays m x b q := by
  induction a with
  | nil =>
    intro p q
    constructor
    · intro h; exact ⟨p, rfl, h⟩
    · rintro ⟨x, rfl, h⟩; exact h
  | cons t a ih =>
    intro p q
    simp only [List.cons_append, Lays, ih]
    constructor
    · rintro ⟨h0, n, h1, x, h2, h3⟩; exact ⟨x, ⟨h0, n, h1, h2⟩, h3⟩
    · rintro ⟨x, ⟨h0, n, h1, h2⟩, h3⟩; exact ⟨h0, n, h1, x, h2, h3⟩

theorem lays_parse {m : Mem} (fuel : Nat) : ∀ {p : Nat} {bs rest : List UInt8} {toks : List Tok}, Holds m p bs → parseFuel fuel bs = some (toks, rest) →
    ∃ q, Lays m p toks q ∧ m q = some 0 := by
  induction fuel with
  | zero => intro p bs rest toks _ h; cases h
  | succ fuel ih =>
    intro p bs rest toks hh h
    cases bs with
    | nil => cases h
    | cons b bs =>
      unfold parseFuel at h
      by_cases h0 : b = 0
      · rw [if_pos h0] at h
        cases h
        rw [holds_cons] at hh
        exact ⟨p, rfl, by rw [hh.1, h0]⟩
      · rw [if_neg h0] at h
        cases hn : nextTok (b :: bs) with
        | none => rw [hn] at h; cases h
        | some x =>
          obtain ⟨t, r1⟩ := x
          rw [hn] at h
          simp only at h
          cases hp : parseFuel fuel r1 with
          | none => rw [hp] at h; cases h
          | some y =>
            obtain ⟨ts, r2⟩ := y
            rw [hp] at h
            cases h
            obtain ⟨h1, n, h2, h3⟩ := itemAt_nextTok hh hn
            obtain ⟨q, h4, h5⟩ := ih h3 hp
            exact ⟨q, ⟨h1, n, h2, h4⟩, h5⟩

/-- From one state to another, hearing `evs`. -/
def Reach (m : Mem) (c : Chan) (evs : List Ev) (c' : Chan) : Prop := ∃ n, ∀ k, run m (n + k) c = (run m k c').map (evs ++ ·)

theorem Reach.refl (m : Mem) (c : Chan) : Reach m c [] c := ⟨0, fun k => by
  rw [Nat.zero_add]; cases run m k c <;> simp⟩

theorem Reach.trans {m : Mem} {a b c : Chan} {x y : List Ev} (h1 : Reach m a x b) (h2 : Reach m b y c) : Reach m a (x ++ y) c := by
  obtain ⟨n1, h1⟩ := h1
  obtain ⟨n2, h2⟩ := h2
  refine ⟨n1 + n2, fun k => ?_⟩
  rw [Nat.add_assoc, h1, h2, Option.map_map]
  congr 1
  funext z
  simp

theorem Reach.one {m : Mem} {a b : Chan} {x : List Ev} (h : step m a = some (x, some b)) : Reach m a x b := ⟨1, fun k => by
  rw [Nat.add_comm, run, h]⟩

theorem Reach.finish {m : Mem} {a b : Chan} {x : List Ev} (h : Reach m a x b) (hb : step m b = some ([], none)) : ∃ n, ∀ k, run m (n + k) a = some x := by
  obtain ⟨n, h⟩ := h
  refine ⟨n + 1, fun k => ?_⟩
  rw [Nat.add_assoc, h, Nat.add_comm, run, hb]
  simp

/-- The effect of calls is not used. -/
abbrev noCall : UInt8 → UInt8 → UInt8 → Regs → Regs := fun _ _ _ r => r

theorem step_plain {m : Mem} {p n : Nat} {t : Tok} (h0 : m p ≠ some 0) (h1 : itemAt m p = some (t, n)) (hc : callOf t = none) (r : Regs) (s : Option Sub) :
    step m ⟨p, r, s⟩ = some (t.ev r, some ⟨n, t.regs noCall r, s⟩) := by
  unfold step
  rw [if_neg h0, h1]
  simp only [hc]

theorem step_call {m : Mem} {p n : Nat} {t : Tok} {a k : Nat} (h0 : m p ≠ some 0) (h1 : itemAt m p = some (t, n)) (hc : callOf t = some (a, k)) (r : Regs)
    (s : Option Sub) : step m ⟨p, r, s⟩ = some ([], some ⟨a, r, some ⟨a, k, n⟩⟩) := by
  unfold step
  rw [if_neg h0, h1]
  simp only [hc]

theorem step_end {m : Mem} {p : Nat} (h : m p = some 0) (r : Regs) : step m ⟨p, r, none⟩ = some ([], none) := by
  unfold step
  rw [if_pos h]

theorem step_return {m : Mem} {p a b : Nat} (h : m p = some 0) (r : Regs) : step m ⟨p, r, some ⟨a, 1, b⟩⟩ = some ([], some ⟨b, r, none⟩) := by
  unfold step
  rw [if_pos h]
  rfl

theorem step_again {m : Mem} {p a b n : Nat} (h : m p = some 0) (r : Regs) :
    step m ⟨p, r, some ⟨a, n + 2, b⟩⟩ = some ([], some ⟨a, r, some ⟨a, n + 1, b⟩⟩) := by
  unfold step
  rw [if_pos h]
  rfl

/-- Items without calls are played as in `play`, in a subroutine or not. -/
theorem reach_plain {m : Mem} (toks : List Tok) (hc : ∀ t ∈ toks, callOf t = none) : ∀ {p q : Nat} (r : Regs) (s : Option Sub), Lays m p toks q →
    Reach m ⟨p, r, s⟩ (play noCall toks r) ⟨q, finalRegs noCall toks r, s⟩ := by
  induction toks with
  | nil => rintro p q r s rfl; exact Reach.refl m _
  | cons t ts ih =>
    rintro p q r s ⟨h0, n, h1, h2⟩
    exact (Reach.one (step_plain h0 h1 (hc t List.mem_cons_self) r s)).trans (ih (fun t ht => hc t (List.mem_cons_of_mem _ ht)) _ s h2)

theorem callOf_cmdTok (addr : Nat → UInt8 × UInt8) (c : Command) (h : isCall c = false) : callOf (cmdTok addr c) = none := by
  cases c <;> simp_all [cmdTok, encodeCmd, callOf, isCall]

theorem callOf_call (addr : Nat → UInt8 × UInt8) (t : Nat) (k : UInt8) :
    callOf (cmdTok addr (.callLoop t k)) = some ((addr t).1.toNat + 256 * (addr t).2.toNat, k.toNat) := by
  simp [cmdTok, encodeCmd, callOf]

theorem callOf_pre (c : PCmd) (d : UInt8) (vs : Option UInt8) : ∀ t ∈ preTok c d vs, callOf t = none := by
  unfold preTok
  split <;> simp [callOf]

theorem callOf_enc (addr : Nat → UInt8 × UInt8) (cs : List PCmd) (hc : ∀ c ∈ cs, isCall c.command = false) : ∀ (d : UInt8) (vs : Option UInt8),
    ∀ t ∈ encToks addr cs d vs, callOf t = none := by
  induction cs with
  | nil => intro d vs t ht; cases ht
  | cons c cs ih =>
    intro d vs t ht
    simp only [encToks, List.mem_append, List.mem_cons] at ht
    rcases ht with ht | rfl | ht
    · exact callOf_pre c d vs t ht
    · exact callOf_cmdTok _ _ (hc c List.mem_cons_self)
    · exact ih (fun c hc' => hc c (List.mem_cons_of_mem _ hc')) _ _ t ht

/-- The timing of what is intended depends on the duration only. -/
theorem intended_timing (addr : Nat → UInt8 × UInt8) (cs : List PCmd) : ∀ (dur v v' s s' : UInt8),
    (intended addr cs dur v s).map Ev.timing = (intended addr cs dur v' s').map Ev.timing := by
  induction cs with
  | nil => intros; rfl
  | cons c cs ih =>
    intro dur v v' s s'
    rw [intended_cons, intended_cons, List.map_cons, List.map_cons, ih _ _ ((asked c.velocity).getD v') _ ((asked c.sustain).getD s')]
    congr 1
    exact cmdEv_timing _ _ _ _ _ _ _ _ fun _ => rfl

theorem intended_append (addr : Nat → UInt8 × UInt8) (a : List PCmd) : ∀ (dur v s : UInt8), ∃ dur' v' s', ∀ b,
    intended addr (a ++ b) dur v s = intended addr a dur v s ++ intended addr b dur' v' s' := by
  induction a with
  | nil => intro dur v s; exact ⟨dur, v, s, fun b => rfl⟩
  | cons c a ih =>
    intro dur v s
    obtain ⟨dur', v', s', h⟩ := ih ((asked c.duration).getD dur) ((asked c.velocity).getD v) ((asked c.sustain).getD s)
    refine ⟨dur', v', s', fun b => ?_⟩
    rw [List.cons_append, intended_cons, h, intended_cons]
    rfl

/-- A subroutine in memory: its bytes at `a` with the end mark; it has no calls. -/
structure Body (m : Mem) (addr : Nat → UInt8 × UInt8) (a : Nat) (body : List PCmd) : Prop where
  enc : Encodable 0xff body
  flat : ∀ c ∈ body, isCall c.command = false
  lays : ∃ q, Lays m a (encToks addr body 0xff none) q ∧ m q = some 0

theorem Body.timing {m : Mem} {addr : Nat → UInt8 × UInt8} {a : Nat} {body : List PCmd} (h : Body m addr a body) (r : Regs) (dur v s : UInt8) :
    (play noCall (encToks addr body 0xff none) r).map Ev.timing = (intended addr body dur v s).map Ev.timing := by
  rw [intended_timing addr body dur v 13 s 7]
  exact play_timing addr noCall body 0xff none dur 13 7 r VSRel.init h.enc (fun h => absurd h.2 (by decide))
    (fun c hc h' => by rw [h.flat c hc] at h'; cases h')

/-- Playing a subroutine `n + 1` times. -/
theorem Body.reach {m : Mem} {addr : Nat → UInt8 × UInt8} {a : Nat} {body : List PCmd} (h : Body m addr a body) (back : Nat) (X : List Ev)
    (hX : ∀ r, (play noCall (encToks addr body 0xff none) r).map Ev.timing = X) (n : Nat) :
    ∀ r, ∃ evs r', Reach m ⟨a, r, some ⟨a, n + 1, back⟩⟩ evs ⟨back, r', none⟩ ∧ evs.map Ev.timing = (List.replicate (n + 1) X).flatten := by
  obtain ⟨q, hl, h0⟩ := h.lays
  induction n with
  | zero =>
    intro r
    refine ⟨_, _, (reach_plain _ (callOf_enc addr body h.flat 0xff none) r _ hl).trans (Reach.one (step_return h0 _)), ?_⟩
    rw [List.append_nil, hX]
    simp
  | succ n ih =>
    intro r
    obtain ⟨evs, r', h1, h2⟩ := ih (finalRegs noCall (encToks addr body 0xff none) r)
    refine ⟨_, _, ((reach_plain _ (callOf_enc addr body h.flat 0xff none) r _ hl).trans (Reach.one (step_again h0 _))).trans h1, ?_⟩
    rw [List.append_nil, List.map_append, hX, h2, List.replicate_succ (n := n + 1), List.flatten_cons]

theorem intended_copies {addr : Nat → UInt8 × UInt8} {body : List PCmd} {X : List Ev}
    (hX : ∀ dur v s, (intended addr body dur v s).map Ev.timing = X) (n : Nat) : ∀ (dur v s : UInt8), ∃ dur' v' s', ∀ b,
    (intended addr (copies n body ++ b) dur v s).map Ev.timing = (List.replicate n X).flatten ++ (intended addr b dur' v' s').map Ev.timing := by
  induction n with
  | zero => intro dur v s; exact ⟨dur, v, s, fun b => by simp [copies]⟩
  | succ n ih =>
    intro dur v s
    obtain ⟨d1, v1, s1, h1⟩ := intended_append addr body dur v s
    obtain ⟨d2, v2, s2, h2⟩ := ih d1 v1 s1
    refine ⟨d2, v2, s2, fun b => ?_⟩
    rw [show copies (n + 1) body ++ b = body ++ (copies n body ++ b) by simp [copies, List.replicate_succ], h1, List.map_append, hX, h2,
      List.replicate_succ, List.flatten_cons, List.append_assoc]

/-- **The main lemma**: a track with calls is heard as its expansion, up to velocity and sustain. -/
theorem reach_track {m : Mem} {addr : Nat → UInt8 × UInt8} {tracks : List (List PCmd)} (cs : List PCmd)
    (hc : ∀ c ∈ cs, ∀ t k, c.command = .callLoop t k → c.duration = some 0 ∧ 1 ≤ k.toNat ∧
      Body m addr ((addr t).1.toNat + 256 * (addr t).2.toNat) (tracks.getD t [])) :
    ∀ {p q : Nat} (d : UInt8) (vs : Option UInt8) (vel sus : UInt8) (dur v s : UInt8) (r : Regs), VSRel vs vel sus → Encodable d cs →
      (Known d → r.dur = d ∧ dur = d) → Lays m p (encToks addr cs d vs) q →
      ∃ evs r', Reach m ⟨p, r, none⟩ evs ⟨q, r', none⟩ ∧ evs.map Ev.timing = (intended addr (expand tracks cs) dur v s).map Ev.timing := by
  induction cs with
  | nil =>
    rintro p q d vs vel sus dur v s r - - - rfl
    exact ⟨[], r, Reach.refl m _, rfl⟩
  | cons c cs ih =>
    intro p q d vs vel sus dur v s r hr hE hd hl
    rw [encodable_cons] at hE
    obtain ⟨hh, hE⟩ := hE
    have hn := hr.next hh.2.2.1 hh.2.2.2.1
    have hD := preDur noCall r hh hr hd
    have ih := @ih (fun c' hc' => hc c' (List.mem_cons_of_mem _ hc'))
    rw [encToks, lays_append] at hl
    obtain ⟨x, hl1, h0, y, hy, hl2⟩ := hl
    have h1 := reach_plain _ (callOf_pre c d vs) r none hl1
    rw [play_pre] at h1
    by_cases hcall : isCall c.command = true
    · obtain ⟨t, k, hcc⟩ : ∃ t k, c.command = .callLoop t k := by
        cases hcc : c.command <;> simp only [hcc, isCall] at hcall <;> first | exact absurd hcall (by decide) | exact ⟨_, _, rfl⟩
      obtain ⟨hz, hk, hB⟩ := hc c List.mem_cons_self t k hcc
      have hX : ∀ dur v s, (intended addr (tracks.getD t []) dur v s).map Ev.timing =
          (play noCall (encToks addr (tracks.getD t []) 0xff none) r).map Ev.timing := fun dur v s => (hB.timing r dur v s).symm
      obtain ⟨n, hkn⟩ : ∃ n, k.toNat = n + 1 := ⟨k.toNat - 1, by omega⟩
      obtain ⟨ev1, r1, h2, h3⟩ := hB.reach y _ (fun r' => (hB.timing r' 0 0 0).trans (hX 0 0 0)) n (finalRegs noCall (preTok c d vs) r)
      have h4 := Reach.one (step_call h0 hy (by rw [hcc]; exact callOf_call addr t k) (finalRegs noCall (preTok c d vs) r) none)
      rw [hkn] at h4
      obtain ⟨d2, v2, s2, h5⟩ := intended_copies hX (n + 1) dur v s
      obtain ⟨ev2, r2, h6, h7⟩ := ih _ _ _ _ d2 v2 s2 r1 hn hE (fun hk => by rw [hz] at hk; exact absurd hk not_known_zero) hl2
      refine ⟨_, r2, ((h1.trans h4).trans h2).trans h6, ?_⟩
      have hx : expand tracks (c :: cs) = copies (n + 1) (tracks.getD t []) ++ expand tracks cs := by
        simp only [expand, List.flatMap_cons, expandCmd, hcc, hkn]
      rw [hx, h5, List.map_append, h7]
      simp only [List.nil_append, h3]
    · have hcall' : isCall c.command = false := by simpa using hcall
      have h4 := Reach.one (step_plain h0 hy (callOf_cmdTok addr c.command hcall') (finalRegs noCall (preTok c d vs) r) none)
      rw [cmdTok_ev, cmdTok_regs _ _ _ _ hcall'] at h4
      obtain ⟨ev2, r2, h6, h7⟩ := ih _ _ _ _ ((asked c.duration).getD dur) ((asked c.velocity).getD v) ((asked c.sustain).getD s)
        (finalRegs noCall (preTok c d vs) r) hn hE hD.2 hl2
      refine ⟨_, r2, (h1.trans h4).trans h6, ?_⟩
      have hx : expand tracks (c :: cs) = c :: expand tracks cs := by
        simp only [expand, List.flatMap_cons]
        have : expandCmd tracks c = [c] := by
          unfold expandCmd
          split
          · rename_i hcc; rw [hcc] at hcall'; cases hcall'
          · rfl
        rw [this]; rfl
      rw [hx, intended_cons]
      simp only [List.nil_append, List.singleton_append, List.map_cons, h7]
      congr 1
      exact cmdEv_timing _ _ _ _ _ _ _ _ hD.1

end M2S.Engine
