import Verif.Proofs.NspcPlay
/-
Helper lemmas on `Song::write_track`.
-/
namespace M2S.Nspc

theorem anyPartFirst_eq (parts : List (List Nat)) (i : Nat) (b : Bool) (h : anyPartFirst parts i = .ok b) :
    b = parts.any (fun p => p.head? = some i) := by
  induction parts with
  | nil => simp_all [anyPartFirst]
  | cons p ps ih =>
    cases p with
    | nil => simp [anyPartFirst, panicked] at h
    | cons t ts =>
      simp only [anyPartFirst] at h
      by_cases ht : t = i
      · simp [ht] at h ⊢; exact h
      · simp [ht] at h ⊢; simpa using ih h

theorem anyPartFirst_ok (parts : List (List Nat)) (i : Nat) (h : ∀ p ∈ parts, p ≠ []) :
    anyPartFirst parts i = .ok (parts.any (fun p => p.head? = some i)) := by
  induction parts with
  | nil => rfl
  | cons p ps ih =>
    cases p with
    | nil => exact absurd rfl (h [] List.mem_cons_self)
    | cons t ts =>
      have := ih (fun p hp => h p (List.mem_cons_of_mem _ hp))
      simp only [anyPartFirst]
      by_cases ht : t = i
      · simp [ht]
      · simp [ht, this]

theorem preamble_bytes (parts : List (List Nat)) (i : Nat) (addr : Nat → UInt8 × UInt8) :
    (if parts.any (fun p => p.head? = some i) then preambleTrack0
      else if parts.any (fun p => p.contains i) then preambleOtherTrack else []) =
    (preambleFor parts i).flatMap (cmdBytes addr) := by
  unfold preambleFor
  split_ifs <;> rfl

theorem preamble_good (parts : List (List Nat)) (i : Nat) : ∀ c ∈ preambleFor parts i, GoodCommand c ∧ isCall c = false ∧ timed c = false := by
  unfold preambleFor
  split_ifs <;> simp [GoodCommand, isCall, timed]

theorem parse_cmds (addr : Nat → UInt8 × UInt8) (l : List Command) (h : ∀ c ∈ l, GoodCommand c) (fuel : Nat) (rest : List UInt8) :
    parseFuel (fuel + l.length) (l.flatMap (cmdBytes addr) ++ rest) =
      (parseFuel fuel rest).map fun p => (l.map (cmdTok addr) ++ p.1, p.2) := by
  induction l generalizing fuel with
  | nil => simp
  | cons c cs ih =>
    simp only [List.flatMap_cons, List.length_cons, List.append_assoc, ← Nat.add_assoc]
    rw [parse_cmd addr c (h c List.mem_cons_self), ih (fun c hc => h c (List.mem_cons_of_mem _ hc))]
    simp [Option.map_map, Function.comp_def]

theorem flatMap_length (addr : Nat → UInt8 × UInt8) (l : List Command) : l.length ≤ (l.flatMap (cmdBytes addr)).length := by
  induction l with
  | nil => simp
  | cons c cs ih =>
    have := cmdBytes_pos addr c
    simp only [List.flatMap_cons, List.length_append, List.length_cons]
    omega

/-- Shape of a successful `write_track` of a non-empty track. -/
theorem writeTrack_eq (s : Song) (i : Nat) (track : List PCmd) (h : s.tracks[i]? = some track) (hne : track ≠ []) (o : Out)
    (ho : s.writeTrack i = .ok o) :
    o.bytes = (preambleFor s.parts i).flatMap (cmdBytes placeholder) ++ encBytes placeholder track 0xff none ++ [0] ∧
    o.refs = encRefs track 0xff none ((preambleFor s.parts i).flatMap (cmdBytes placeholder)).length := by
  unfold Song.writeTrack at ho
  simp only [h] at ho
  have he : track.isEmpty = false := by simpa using hne
  rw [he] at ho
  simp only [Bool.false_eq_true, if_false] at ho
  cases ha : anyPartFirst s.parts i with
  | error e => rw [ha] at ho; simp [Bind.bind, Except.bind] at ho
  | ok b =>
    rw [ha, anyPartFirst_eq _ _ _ ha] at ho
    simp only [Bind.bind, Except.bind, Pure.pure, Except.pure, Except.ok.injEq] at ho
    rw [preamble_bytes s.parts i placeholder] at ho
    rw [← ho]
    simp [trackWrite, Out.put, writeCmds_bytes, writeCmds_refs]

theorem writeTrack_ok (s : Song) (i : Nat) (track : List PCmd) (h : s.tracks[i]? = some track) (hp : ∀ p ∈ s.parts, p ≠ []) :
    ∃ o, s.writeTrack i = .ok o := by
  unfold Song.writeTrack
  simp only [h, anyPartFirst_ok _ _ hp]
  by_cases he : track.isEmpty = true
  · exact ⟨_, by rw [if_pos he]⟩
  · exact ⟨_, by rw [if_neg he]; rfl⟩

/-- Parsing a written track whose CallLoop addresses have been filled in. -/
theorem parse_written (addr : Nat → UInt8 × UInt8) (parts : List (List Nat)) (i : Nat) (track : List PCmd)
    (hE : Encodable 0xff track) (extra : List UInt8) :
    parse ((preambleFor parts i).flatMap (cmdBytes addr) ++ encBytes addr track 0xff none ++ [0] ++ extra) =
      some ((preambleFor parts i).map (cmdTok addr) ++ encToks addr track 0xff none, extra) := by
  unfold parse
  have hl := flatMap_length addr (preambleFor parts i)
  have hf : ((preambleFor parts i).flatMap (cmdBytes addr) ++ encBytes addr track 0xff none ++ [0] ++ extra).length =
      ((preambleFor parts i).flatMap (cmdBytes addr)).length - (preambleFor parts i).length +
        ((encBytes addr track 0xff none).length + 1 + extra.length) + (preambleFor parts i).length := by
    simp only [List.length_append, List.length_singleton]; omega
  rw [hf]
  have := parse_cmds addr (preambleFor parts i) (fun c hc => (preamble_good parts i c hc).1)
    (((preambleFor parts i).flatMap (cmdBytes addr)).length - (preambleFor parts i).length +
        ((encBytes addr track 0xff none).length + 1 + extra.length)) (encBytes addr track 0xff none ++ 0 :: extra)
  simp only [List.append_assoc, List.singleton_append] at this ⊢
  rw [this, parse_enc addr track 0xff none 13 7 VSRel.init hE _ extra (by omega)]
  rfl

end M2S.Nspc
