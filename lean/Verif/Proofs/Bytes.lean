import Verif.Proofs.Nspc
import Verif.Proofs.Optimise
import Verif.Proofs.MidiPlayable
/-
How many bytes a track takes: the writer's state (last duration, last velocity/sustain) changes the size by at most seven bytes, and what replacing a sequence by calls
does to the size.
-/
namespace M2S.Nspc

/-- Parameters that fit their nibbles. -/
def SmallParams (c : PCmd) : Prop := (∀ v ∈ c.velocity, v < 0x10) ∧ (∀ s ∈ c.sustain, s < 0x08)

/-- Does the writer put a velocity/sustain byte? -/
def putsVS (a b : Option UInt8) (note n : Bool) (vel sus : UInt8) : Bool :=
  if a.isSome ∨ b.isSome then n || decide (a.getD vel ≠ vel) || decide (b.getD sus ≠ sus) else n && note

/-- Does the writer put a new duration? -/
def putsDur (x : Option UInt8) (d : UInt8) : Bool :=
  match x with
  | some y => decide (y ≠ d ∧ y ≠ 0)
  | none => false

theorem vsByte_inj (a b c d : UInt8) (h1 : a < 0x10) (h2 : b < 0x08) (h3 : c < 0x10) (h4 : d < 0x08) (h : vsByte a b = vsByte c d) : a = c ∧ b = d := by
  obtain ⟨e1, e2, -⟩ := vs_decode a b h1 h2
  obtain ⟨e3, e4, -⟩ := vs_decode c d h3 h4
  rw [h] at e1 e2
  exact ⟨e1.symm.trans e3, e2.symm.trans e4⟩

theorem durToWrite_isSome (c : PCmd) (d : UInt8) : (durToWrite c d).isSome = putsDur c.duration d := by
  unfold durToWrite putsDur
  cases c.duration with
  | none => rfl
  | some y =>
    simp only [pos_iff]
    by_cases h1 : y = d <;> by_cases h2 : y = 0 <;> simp [h1, h2]

theorem preBytes_length (c : PCmd) (d : UInt8) (vs : Option UInt8) (vel sus : UInt8) (h : VSRel vs vel sus) (hc : SmallParams c) :
    (preBytes c d vs).length = (if putsVS (asked c.velocity) (asked c.sustain) c.command.isNote vs.isNone vel sus then 2 else if putsDur c.duration d then 1 else 0) ∧
    (nextVS c vs).isNone = (if (asked c.velocity).isSome ∨ (asked c.sustain).isSome then false else vs.isNone && !c.command.isNote) := by
  have hn := h.next hc.1 hc.2
  obtain ⟨b1, b2, -⟩ := hn
  obtain ⟨h1, h2, h3⟩ := h
  have hd := durToWrite_isSome c d
  have e := velSus_eq c vs vel sus h1 h2 hc.1 hc.2 h3
  unfold preBytes preParts nextVS putsVS
  rw [e]
  by_cases ha : (asked c.velocity).isSome ∨ (asked c.sustain).isSome
  · simp only [ha, if_true]
    have hw : (vs = none ∨ vs ≠ some (vsByte ((asked c.velocity).getD vel) ((asked c.sustain).getD sus))) ↔
        (vs.isNone || decide ((asked c.velocity).getD vel ≠ vel) || decide ((asked c.sustain).getD sus ≠ sus)) = true := by
      cases vs with
      | none => simp
      | some w =>
        simp only [Option.getD_some] at h3
        subst h3
        simp only [Option.isNone_some, Bool.false_or, Bool.or_eq_true, decide_eq_true_eq, reduceCtorEq, false_or, ne_eq, Option.some.injEq]
        constructor
        · intro hne
          by_contra hcon
          push Not at hcon
          rw [hcon.1, hcon.2] at hne
          exact hne rfl
        · rintro hne heq
          obtain ⟨q1, q2⟩ := vsByte_inj _ _ _ _ h1 h2 b1 b2 heq
          rcases hne with hne | hne
          · exact hne q1.symm
          · exact hne q2.symm
    refine ⟨?_, by simp⟩
    by_cases hb : (vs.isNone || decide ((asked c.velocity).getD vel ≠ vel) || decide ((asked c.sustain).getD sus ≠ sus)) = true
    · rw [if_pos hb]
      simp only [if_pos (hw.2 hb)]
      cases durToWrite c d <;> simp
    · rw [if_neg hb]
      simp only [if_neg (fun q => hb (hw.1 q))]
      rw [← hd]
      cases durToWrite c d <;> simp
  · simp only [ha, if_false]
    rw [← hd]
    cases vs <;> cases c.command.isNote <;> cases durToWrite c d <;> simp

/-- How far apart two writer states are, in bytes. -/
def gap (n n' : Bool) (vel vel' sus sus' d d' : UInt8) : Nat :=
  (if n = n' then 0 else 2) + (if vel = vel' then 0 else 2) + (if sus = sus' then 0 else 2) + (if d = d' then 0 else 1)

theorem gap_le (n n' : Bool) (vel vel' sus sus' d d' : UInt8) : gap n n' vel vel' sus sus' d d' ≤ 7 := by
  unfold gap; split_ifs <;> omega

theorem gap_step (a b x : Option UInt8) (note n n' : Bool) (vel vel' sus sus' d d' : UInt8) :
    (if putsVS a b note n vel sus then 2 else if putsDur x d then 1 else 0) +
      gap (if a.isSome ∨ b.isSome then false else n && !note) (if a.isSome ∨ b.isSome then false else n' && !note)
        (a.getD vel) (a.getD vel') (b.getD sus) (b.getD sus') (x.getD d) (x.getD d') ≤
    (if putsVS a b note n' vel' sus' then 2 else if putsDur x d' then 1 else 0) + gap n n' vel vel' sus sus' d d' := by
  have hdur : (if putsDur x d then 1 else 0) + (if x.getD d = x.getD d' then 0 else 1) ≤ (if putsDur x d' then 1 else 0) + (if d = d' then 0 else 1) := by
    cases x with
    | none => simp [putsDur]
    | some y =>
      simp only [putsDur, decide_eq_true_eq, Option.getD_some, if_true]
      by_cases h0 : y = 0 <;> by_cases h1 : y = d <;> by_cases h2 : y = d' <;> by_cases h3 : d = d' <;> simp_all
  have hp : (if putsDur x d then 1 else 0) ≤ 1 := by split_ifs <;> omega
  have hq : (if putsDur x d' then 1 else 0) ≤ 1 := by split_ifs <;> omega
  have hg : (if x.getD d = x.getD d' then 0 else 1) ≤ (if d = d' then 0 else 1) := by
    cases x with
    | none => simp
    | some y => simp
  generalize (if putsDur x d then 1 else 0) = p at *
  generalize (if putsDur x d' then 1 else 0) = q at *
  unfold gap
  generalize (if x.getD d = x.getD d' then 0 else 1) = g1 at *
  generalize (if d = d' then 0 else 1) = g2 at *
  unfold putsVS
  cases a with
  | none =>
    cases b with
    | none => cases n <;> cases n' <;> cases note <;> simp <;> omega
    | some s =>
      cases n <;> cases n' <;> simp <;> by_cases h1 : s = sus <;> by_cases h2 : s = sus' <;> by_cases h3 : sus = sus' <;> simp_all <;> omega
  | some v =>
    cases b with
    | none =>
      cases n <;> cases n' <;> simp <;> by_cases h1 : v = vel <;> by_cases h2 : v = vel' <;> by_cases h3 : vel = vel' <;> simp_all <;> omega
    | some s =>
      cases n <;> cases n' <;> simp <;> by_cases h1 : s = sus <;> by_cases h2 : s = sus' <;> by_cases h3 : sus = sus' <;>
        by_cases h4 : v = vel <;> by_cases h5 : v = vel' <;> by_cases h6 : vel = vel' <;> simp_all <;> omega

/-- Bytes a list of commands takes when written in a given state. -/
def size (cs : List PCmd) (d : UInt8) (vs : Option UInt8) : Nat := (encBytes placeholder cs d vs).length

/-- The writer's state after some commands. -/
def endDur (cs : List PCmd) (d : UInt8) : UInt8 := cs.foldl (fun d c => c.duration.getD d) d
def endVS (cs : List PCmd) (vs : Option UInt8) : Option UInt8 := cs.foldl (fun vs c => nextVS c vs) vs

theorem size_cons (c : PCmd) (cs : List PCmd) (d : UInt8) (vs : Option UInt8) :
    size (c :: cs) d vs = (preBytes c d vs).length + (cmdBytes placeholder c.command).length + size cs (c.duration.getD d) (nextVS c vs) := by
  unfold size; rw [encBytes]; simp only [List.length_append]

theorem size_append (x y : List PCmd) (d : UInt8) (vs : Option UInt8) : size (x ++ y) d vs = size x d vs + size y (endDur x d) (endVS x vs) := by
  induction x generalizing d vs with
  | nil => simp [size, encBytes, endDur, endVS]
  | cons c x ih =>
    rw [List.cons_append, size_cons, size_cons, ih]
    show _ = _ + size y (endDur x (c.duration.getD d)) (endVS x (nextVS c vs))
    omega

theorem length_le_size (cs : List PCmd) (d : UInt8) (vs : Option UInt8) : cs.length ≤ size cs d vs := by
  induction cs generalizing d vs with
  | nil => simp
  | cons c cs ih =>
    rw [size_cons, List.length_cons]
    have := ih (c.duration.getD d) (nextVS c vs)
    have : 0 < (cmdBytes placeholder c.command).length := by unfold cmdBytes; simp
    omega

/-- Two writer states at most `k` bytes apart. -/
def Near (k : Nat) (d : UInt8) (vs : Option UInt8) (d' : UInt8) (vs' : Option UInt8) : Prop :=
  ∃ vel sus vel' sus', VSRel vs vel sus ∧ VSRel vs' vel' sus' ∧ gap vs.isNone vs'.isNone vel vel' sus sus' d d' ≤ k

def Legal (vs : Option UInt8) : Prop := ∃ vel sus, VSRel vs vel sus

theorem Near.of_legal {vs vs' : Option UInt8} (h : Legal vs) (h' : Legal vs') (d d' : UInt8) : Near 7 d vs d' vs' := by
  obtain ⟨vel, sus, h⟩ := h
  obtain ⟨vel', sus', h'⟩ := h'
  exact ⟨vel, sus, vel', sus', h, h', gap_le _ _ _ _ _ _ _ _⟩

theorem Near.refl {vs : Option UInt8} (h : Legal vs) (d : UInt8) : Near 0 d vs d vs := by
  obtain ⟨vel, sus, h⟩ := h
  exact ⟨vel, sus, vel, sus, h, h, by simp [gap]⟩

theorem Near.legal {k : Nat} {d d' : UInt8} {vs vs' : Option UInt8} (h : Near k d vs d' vs') : Legal vs ∧ Legal vs' := by
  obtain ⟨vel, sus, vel', sus', h, h', -⟩ := h
  exact ⟨⟨vel, sus, h⟩, ⟨vel', sus', h'⟩⟩

theorem Legal.init : Legal none := ⟨13, 7, VSRel.init⟩

theorem Legal.endVS (cs : List PCmd) (h : ∀ c ∈ cs, SmallParams c) : ∀ {vs : Option UInt8}, Legal vs → Legal (endVS cs vs) := by
  induction cs with
  | nil => intro vs hv; exact hv
  | cons c cs ih =>
    intro vs ⟨vel, sus, hv⟩
    exact ih (fun x hx => h x (by simp [hx])) ⟨_, _, hv.next (h c (by simp)).1 (h c (by simp)).2⟩

/-- The state changes the size by no more than the gap, and what it costs is not owed twice. -/
theorem size_near (cs : List PCmd) (hs : ∀ c ∈ cs, SmallParams c) : ∀ {k : Nat} {d d' : UInt8} {vs vs' : Option UInt8}, Near k d vs d' vs' →
    ∃ k', Near k' (endDur cs d) (endVS cs vs) (endDur cs d') (endVS cs vs') ∧ size cs d vs + k' ≤ size cs d' vs' + k := by
  induction cs with
  | nil => intro k d d' vs vs' h; exact ⟨k, h, by simp [size, encBytes]⟩
  | cons c cs ih =>
    intro k d d' vs vs' ⟨vel, sus, vel', sus', h, h', hg⟩
    have hc := hs c (by simp)
    obtain ⟨e1, e2⟩ := preBytes_length c d vs vel sus h hc
    obtain ⟨e3, e4⟩ := preBytes_length c d' vs' vel' sus' h' hc
    have hstep := gap_step (asked c.velocity) (asked c.sustain) c.duration c.command.isNote vs.isNone vs'.isNone vel vel' sus sus' d d'
    rw [← e2, ← e4, ← e1, ← e3] at hstep
    obtain ⟨k', n1, n2⟩ := ih (fun x hx => hs x (by simp [hx])) (k := _) (d := c.duration.getD d) (d' := c.duration.getD d') (vs := nextVS c vs) (vs' := nextVS c vs')
      ⟨_, _, _, _, h.next hc.1 hc.2, h'.next hc.1 hc.2, le_rfl⟩
    refine ⟨k', n1, ?_⟩
    rw [size_cons, size_cons]
    omega

theorem size_legal (cs : List PCmd) (hs : ∀ c ∈ cs, SmallParams c) {d d' : UInt8} {vs vs' : Option UInt8} (h : Legal vs) (h' : Legal vs') :
    size cs d vs ≤ size cs d' vs' + 7 := by
  obtain ⟨k', -, h⟩ := size_near cs hs (Near.of_legal h h' d d')
  omega

theorem size_copies (b : List PCmd) (hs : ∀ c ∈ b, SmallParams c) (n : Nat) : ∀ {d : UInt8} {vs : Option UInt8}, Legal vs →
    n * (size b 0xff none - 7) ≤ size (copies n b) d vs := by
  induction n with
  | zero => intro d vs _; simp
  | succ n ih =>
    intro d vs h
    rw [copies_succ, size_append, Nat.succ_mul]
    have := ih (d := endDur b d) (h.endVS b hs)
    have := size_legal b hs (d := 0xff) (d' := d) Legal.init h
    omega

theorem size_drop_le (x : List PCmd) (n : Nat) (d : UInt8) (vs : Option UInt8) :
    size (x.drop n) (endDur (x.take n) d) (endVS (x.take n) vs) ≤ size x d vs := by
  conv_rhs => rw [← List.take_append_drop n x, size_append]
  omega

theorem size_loopCmd (k : Nat) (n : UInt8) (cs : List PCmd) (d : UInt8) (vs : Option UInt8) (h : Legal vs) :
    size (loopCmd k n :: cs) d vs = 4 + size cs 0 vs := by
  obtain ⟨vel, sus, h⟩ := h
  have hc : SmallParams (loopCmd k n) := by unfold SmallParams loopCmd; simp
  obtain ⟨e1, e2⟩ := preBytes_length (loopCmd k n) d vs vel sus h hc
  have a0 : asked (some (0 : UInt8)) = none := by decide
  have hv : nextVS (loopCmd k n) vs = vs := by
    unfold nextVS
    rw [velSus_eq _ vs vel sus h.1 h.2.1 hc.1 hc.2 h.2.2]
    cases vs <;> simp [loopCmd, a0, Command.isNote]
  rw [size_cons, e1, hv]
  have : putsVS (asked (loopCmd k n).velocity) (asked (loopCmd k n).sustain) (loopCmd k n).command.isNote vs.isNone vel sus = false := by
    simp [loopCmd, a0, putsVS, Command.isNote]
  rw [this]
  simp [loopCmd, putsDur, cmdBytes, encodeCmd]

/-- Replacing a sequence by calls: what the new track takes. -/
theorem extractTrack_bytes (tr body : List PCmd) (k : Nat) (hne : body ≠ []) (htr : ∀ c ∈ tr, SmallParams c) (ls : List Location)
    (hone : ∀ l ∈ ls, 1 ≤ l.repeatCount.toNat) : ∀ (last : Nat) (out : List PCmd),
    extractTrack tr body.length k ls last = .ok out → last ≤ tr.length →
    (∀ c ∈ body, SmallParams c) →
    (∀ l ∈ ls, last ≤ l.cmdIdx ∧ copies (min l.repeatCount.toNat 2) body <+: tr.drop l.cmdIdx) →
    ls.Pairwise (fun a b => a.cmdIdx + body.length * a.repeatCount.toNat ≤ b.cmdIdx) →
    ∀ {e : Nat} {d d' : UInt8} {vs vs' : Option UInt8}, Near e d' vs' d vs →
    size out d' vs' + (ls.map fun l => min l.repeatCount.toNat 2 * (size body 0xff none - 7)).sum ≤ size (tr.drop last) d vs + 11 * ls.length + e := by
  induction ls with
  | nil =>
    intro last out h hl hb _ _ e d d' vs vs' hn
    simp only [extractTrack, res_ok] at h
    subst h
    obtain ⟨k', -, g⟩ := size_near (tr.drop last) (fun c hc => htr c (List.mem_of_mem_drop hc)) hn
    split_ifs with hlt
    · simp; omega
    · simp [size, encBytes]
  | cons l ls ih =>
    intro last out h hl hb hocc hs e d d' vs vs' hn
    rw [List.pairwise_cons] at hs
    simp only [extractTrack, res_bind, res_pure] at h
    obtain ⟨before, hbf, rest, hrest, rfl⟩ := h
    obtain ⟨g1, w, g2⟩ := hocc l (by simp)
    unfold slice at hbf
    split_ifs at hbf with hsl
    swap
    · cases hbf
    simp only [res_ok] at hbf
    -- the old track: what is kept, the copies, the rest
    have hsplit : tr.drop last = before ++ tr.drop l.cmdIdx := by
      rw [← hbf]
      have : tr.drop l.cmdIdx = (tr.drop last).drop (l.cmdIdx - last) := by rw [List.drop_drop]; congr 1; omega
      rw [this, List.drop_take, List.take_append_drop]
    have hbs : ∀ c ∈ before, SmallParams c := by
      intro c hc
      apply htr c
      rw [← hbf] at hc
      exact List.mem_of_mem_take (List.mem_of_mem_drop hc)
    obtain ⟨e1, hn1, hsz⟩ := size_near before hbs hn
    obtain ⟨hl1, hl2⟩ := hn1.legal
    have hw : w = tr.drop (l.cmdIdx + body.length * min l.repeatCount.toNat 2) := by
      rw [← List.drop_drop, ← g2, ← copies_length, List.drop_left]
    have hcs : ∀ c ∈ copies (min l.repeatCount.toNat 2) body, SmallParams c := by
      intro c hc
      exact htr c (List.mem_of_mem_drop (g2 ▸ List.mem_append_left _ hc))
    have hcop := size_copies body hb (min l.repeatCount.toNat 2) (d := endDur before d) hl2
    have hl3 := hl2.endVS _ hcs
    have hm : min l.repeatCount.toNat 2 ≤ l.repeatCount.toNat := Nat.min_le_left _ _
    have hdrop : tr.drop (l.cmdIdx + body.length * l.repeatCount.toNat) = w.drop (body.length * (l.repeatCount.toNat - min l.repeatCount.toNat 2)) := by
      rw [hw, List.drop_drop]; congr 1
      rw [Nat.mul_sub, Nat.add_assoc, Nat.add_sub_cancel' (Nat.mul_le_mul_left _ hm)]
    have hws : ∀ c ∈ w, SmallParams c := by
      intro c hc
      rw [hw] at hc
      exact htr c (List.mem_of_mem_drop hc)
    by_cases hend : l.cmdIdx + body.length * l.repeatCount.toNat ≤ tr.length
    · have key := ih (fun x hx => hone x (by simp [hx])) _ rest hrest hend hb (fun x hx => ⟨hs.1 x hx, (hocc x (by simp [hx])).2⟩) hs.2
        (Near.of_legal (vs := endVS before vs') hl1 ((hl3.endVS (w.take (body.length * (l.repeatCount.toNat - min l.repeatCount.toNat 2)))
            (fun c hc => hws c (List.mem_of_mem_take hc)))) 0
          (endDur (w.take (body.length * (l.repeatCount.toNat - min l.repeatCount.toNat 2))) (endDur (copies (min l.repeatCount.toNat 2) body) (endDur before d))))
      rw [hdrop] at key
      have hd := size_drop_le w (body.length * (l.repeatCount.toNat - min l.repeatCount.toNat 2)) (endDur (copies (min l.repeatCount.toNat 2) body) (endDur before d))
        (endVS (copies (min l.repeatCount.toNat 2) body) (endVS before vs))
      rw [size_append, size_loopCmd _ _ _ _ _ hl1, hsplit, size_append, ← g2, size_append, List.map_cons, List.sum_cons, List.length_cons]
      omega
    · -- the overcounted repetition runs past the end: nothing follows
      have hnil : ls = [] := by
        cases ls with
        | nil => rfl
        | cons x xs =>
          exfalso
          have h1 := hs.1 x (by simp)
          obtain ⟨-, w', g2'⟩ := hocc x (by simp)
          have : tr.drop x.cmdIdx = [] := List.drop_of_length_le (by omega)
          rw [this] at g2'
          have hnb := (List.append_eq_nil_iff.1 g2').1
          have hlen := congrArg List.length hnb
          rw [copies_length] at hlen
          have h2 := hone x (by simp)
          have : 0 < body.length * min x.repeatCount.toNat 2 := Nat.mul_pos (List.length_pos_of_ne_nil hne) (by omega)
          rw [List.length_nil] at hlen
          omega
      subst hnil
      simp only [extractTrack, res_ok] at hrest
      rw [if_neg (by omega)] at hrest
      subst hrest
      rw [size_append, size_loopCmd _ _ _ _ _ hl1, hsplit, size_append, ← g2, size_append, List.map_cons, List.sum_cons, List.length_cons]
      simp only [List.map_nil, List.sum_nil, List.length_nil]
      have : size [] 0 (endVS before vs') = 0 := by simp [size, encBytes]
      omega

end M2S.Nspc

namespace M2S
open Nspc

/-- Bytes of all tracks, without preambles and end bytes. -/
def bytesOf (tracks : List (List PCmd)) : Nat := (tracks.map fun tr => size tr 0xff none).sum

theorem sum_range_getD_size (l : List (List PCmd)) : ((List.range l.length).map fun i => size (l.getD i []) 0xff none).sum = bytesOf l := by
  unfold bytesOf
  congr 1
  apply List.ext_getElem
  · simp
  · intro i h1 h2
    simp only [List.getElem_map, List.getElem_range]
    rw [List.getD_eq_getElem?_getD, List.getElem?_eq_getElem (by simpa using h2)]; rfl

/-- What one round does to the bytes. -/
theorem Round.bytes {top : Nat} {tracks out : List (List PCmd)} {s : Sequence} (htop : top ≤ tracks.length) (h : Round top tracks s out)
    (hsm : ∀ tr ∈ tracks, ∀ c ∈ tr, SmallParams c) :
    bytesOf out + (s.locations.map fun l => min l.repeatCount.toNat 2).sum * (size s.commands 0xff none - 7) ≤
      bytesOf tracks + 11 * s.locations.length + size s.commands 0xff none := by
  obtain ⟨g1, g2, g3, g4, -⟩ := h.facts htop
  obtain ⟨tree, -, -, he⟩ := h
  obtain ⟨newTop, rfl, hn, hg⟩ := extractSequence_inv tracks s top out he
  have hnl : newTop.length = top := by rw [hn, List.length_take]; omega
  have hbody : ∀ c ∈ s.commands, SmallParams c := by
    have hne : s.locations ≠ [] := by
      intro h0; rw [h0] at g3; simp at g3
    obtain ⟨l, hl⟩ := List.exists_mem_of_ne_nil _ hne
    obtain ⟨tr, ht, hp⟩ := g1.occurs l hl
    intro c hc
    have htr : tr ∈ tracks := List.mem_of_mem_take (List.mem_of_getElem? ht)
    exact hsm tr htr c (List.mem_of_mem_drop (hp.subset hc))
  have hper : ∀ i tr o, (tracks.take top)[i]? = some tr → extractTrack tr s.commands.length tracks.length (s.locations.filter fun l => l.trackIdx = i) 0 = .ok o →
      size o 0xff none + ((s.locations.filter fun l => l.trackIdx = i).map fun l => min l.repeatCount.toNat 2 * (size s.commands 0xff none - 7)).sum ≤
        size tr 0xff none + ((s.locations.filter fun l => l.trackIdx = i).map fun _ => 11).sum := by
    intro i tr o hi ho
    have htr : tr ∈ tracks := List.mem_of_mem_take (List.mem_of_getElem? hi)
    have := extractTrack_bytes tr s.commands tracks.length g1.ne (hsm tr htr) _ (fun l hl => g1.once l (List.mem_filter.1 hl).1) 0 o ho (Nat.zero_le _) hbody ?_ ?_
      (Near.refl Legal.init 0xff)
    · simpa [Nat.mul_comm] using this
    · intro l hl
      simp only [List.mem_filter, decide_eq_true_eq] at hl
      obtain ⟨hl, rfl⟩ := hl
      refine ⟨Nat.zero_le _, ?_⟩
      obtain ⟨tr1, ht1, hp1⟩ := g1.occurs l hl
      rw [hi] at ht1; cases ht1
      have h1 := g1.once l hl
      by_cases h2 : 2 ≤ l.repeatCount.toNat
      · rw [Nat.min_eq_right h2]
        obtain ⟨tr2, ht2, hp2⟩ := g1.twice l hl h2
        rw [hi] at ht2; cases ht2
        obtain ⟨w1, hw1⟩ := hp1
        obtain ⟨w2, hw2⟩ := hp2
        refine ⟨w2, ?_⟩
        rw [copies_succ, copies_succ, copies_zero, List.append_nil, List.append_assoc, hw2, ← List.drop_drop, ← hw1, List.drop_left]
      · rw [show min l.repeatCount.toNat 2 = 1 by omega, copies_succ, copies_zero, List.append_nil]
        exact hp1
    · have := (List.Pairwise.filter (fun l : Location => decide (l.trackIdx = i)) g1.apart)
      refine List.Pairwise.imp_of_mem ?_ this
      intro a b ha hb hab
      simp only [List.mem_filter, decide_eq_true_eq] at ha hb
      rcases hab with hab | hab
      · omega
      · exact hab.2
  have e2 : ∀ f : Location → Nat, ((s.locations.filter fun l => l.trackIdx < top).map f).sum = (s.locations.map f).sum := by
    intro f
    congr 2
    rw [List.filter_eq_self]
    intro l hl
    obtain ⟨tr, ht, -⟩ := g1.occurs l hl
    have := (List.getElem?_eq_some_iff.1 ht).1
    rw [List.length_take] at this
    simp only [decide_eq_true_eq]; omega
  have hsplit : bytesOf tracks = bytesOf (tracks.take top) + bytesOf (tracks.drop top) := by
    unfold bytesOf
    rw [← List.sum_append, ← List.map_append, List.take_append_drop]
  have hout : bytesOf (newTop ++ tracks.drop top ++ [s.commands]) = bytesOf newTop + bytesOf (tracks.drop top) + size s.commands 0xff none := by
    unfold bytesOf
    simp [List.sum_append, Nat.add_assoc]
  have e3 : 11 * s.locations.length = (s.locations.map fun _ => 11).sum := by simp [Nat.mul_comm]
  have e5 : (s.locations.map fun l => min l.repeatCount.toNat 2).sum * (size s.commands 0xff none - 7) =
      (s.locations.map fun l => min l.repeatCount.toNat 2 * (size s.commands 0xff none - 7)).sum := by
    rw [Nat.mul_comm, ← sum_mul_left]
    congr 1
    exact List.map_congr_left (fun l _ => Nat.mul_comm _ _)
  have key : bytesOf newTop + (s.locations.map fun l => min l.repeatCount.toNat 2 * (size s.commands 0xff none - 7)).sum ≤ bytesOf (tracks.take top) + (s.locations.map fun _ => 11).sum := by
    rw [← e2, ← e2, ← sum_filter_lt, ← sum_filter_lt, ← sum_range_getD_size, ← sum_range_getD_size, hnl, List.length_take, Nat.min_eq_left htop, ← sum_range_add, ← sum_range_add]
    apply sum_le_pointwise
    intro i hi
    have hlt : i < (tracks.take top).length := by rw [List.length_take]; omega
    have hgi := List.getElem?_eq_getElem hlt
    obtain ⟨o, ho, hx⟩ := hg i _ hgi
    rw [List.getD_eq_getElem?_getD, ho, List.getD_eq_getElem?_getD, hgi]
    exact hper i _ o hgi hx
  rw [hout, hsplit, e3, e5]
  omega

/-- A round that extracts a sequence of at least 37 bytes saves at least the end byte of its subroutine. -/
theorem Round.saves {top : Nat} {tracks out : List (List PCmd)} {s : Sequence} (htop : top ≤ tracks.length) (h : Round top tracks s out)
    (hsm : ∀ tr ∈ tracks, ∀ c ∈ tr, SmallParams c) (hlong : 37 ≤ size s.commands 0xff none) :
    bytesOf out + 1 ≤ bytesOf tracks ∧ out.length = tracks.length + 1 := by
  have hb := h.bytes htop hsm
  obtain ⟨g1, g2, g3, g4, -⟩ := h.facts htop
  refine ⟨?_, g4⟩
  obtain ⟨m1, m2⟩ := sum_min_ge s.locations g1.once
  have m2 := m2 g3
  generalize (s.locations.map fun l => min l.repeatCount.toNat 2).sum = M at *
  generalize size s.commands 0xff none = b at *
  generalize s.locations.length = n at *
  obtain ⟨k, rfl⟩ : ∃ k, b = k + 7 := ⟨b - 7, by omega⟩
  rw [Nat.add_sub_cancel] at hb
  have : M * k ≥ 11 * M + k + 8 := by nlinarith
  omega

theorem Round.small {top : Nat} {tracks out : List (List PCmd)} {s : Sequence} (htop : top ≤ tracks.length) (h : Round top tracks s out)
    (hsm : ∀ tr ∈ tracks, ∀ c ∈ tr, SmallParams c) : ∀ tr ∈ out, ∀ c ∈ tr, SmallParams c := by
  intro tr htr c hc
  rcases h.old htop tr htr c hc with ⟨tr', h1, h2⟩ | ⟨t, n, rfl⟩
  · exact hsm tr' h1 c h2
  · unfold SmallParams loopCmd; simp

/-- The subroutines of earlier rounds stay. -/
theorem Round.keeps {top : Nat} {tracks out : List (List PCmd)} {s : Sequence} (htop : top ≤ tracks.length) (h : Round top tracks s out) :
    out.drop top = tracks.drop top ++ [s.commands] := by
  obtain ⟨tree, -, -, he⟩ := h
  obtain ⟨newTop, rfl, hn, -⟩ := extractSequence_inv tracks s top out he
  have hnl : newTop.length = top := by rw [hn, List.length_take]; omega
  rw [List.append_assoc, List.drop_append_of_le_length (by omega), List.drop_of_length_le (by omega), List.nil_append]

theorem optimizeFuel_bytes (top : Nat) (fuel : Nat) : ∀ (tracks out : List (List PCmd)), top ≤ tracks.length → optimizeFuel fuel tracks top = .ok out →
    (∀ tr ∈ tracks, ∀ c ∈ tr, SmallParams c) → (∀ b ∈ out.drop top, 37 ≤ size b 0xff none) →
    bytesOf out + out.length ≤ bytesOf tracks + tracks.length ∧ (out = tracks ∨ bytesOf out < bytesOf tracks) ∧ tracks.drop top <+: out.drop top := by
  induction fuel with
  | zero => intro tracks out _ h; cases h
  | succ fuel ih =>
    intro tracks out htop h hsm hlong
    rcases optimizeFuel_succ fuel tracks out top h with ⟨rfl, -⟩ | ⟨s, tracks1, hr, h⟩
    · exact ⟨le_rfl, .inl rfl, List.prefix_refl _⟩
    · have hlen := (hr.facts htop).2.2.2.1
      obtain ⟨i1, i2, i3⟩ := ih tracks1 out (by omega) h (hr.small htop hsm) hlong
      rw [hr.keeps htop] at i3
      have hb : 37 ≤ size s.commands 0xff none := hlong _ (i3.subset (by simp))
      obtain ⟨q1, q2⟩ := hr.saves htop hsm hb
      refine ⟨by omega, .inr ?_, (List.prefix_append _ _).trans i3⟩
      rcases i2 with rfl | i2 <;> omega

end M2S
