import Verif.Proofs.Release
import Verif.Proofs.Damage
import Verif.Proofs.Crowd
/-
Loop extraction without overflow checks.
-/
namespace M2S

theorem worthwhile_release_spec (s : Sequence) (h : Release.worthwhile s = true) : 3 < s.commands.length ∧ 2 ≤ (s.locations.map fun l => l.repeatCount.toNat).sum := by
  unfold Release.worthwhile at h
  simp only [decide_eq_true_eq] at h
  refine ⟨h.1, ?_⟩
  have key : ∀ (ls : List Location) (a : UInt8), (ls.foldl (fun acc l => acc + l.repeatCount) a).toNat ≤ a.toNat + (ls.map fun l => l.repeatCount.toNat).sum := by
    intro ls
    induction ls with
    | nil => intro a; simp
    | cons l ls ih =>
      intro a
      rw [List.foldl_cons, List.map_cons, List.sum_cons]
      have h1 := ih (a + l.repeatCount)
      have h2 : (a + l.repeatCount).toNat ≤ a.toNat + l.repeatCount.toNat := by
        rw [UInt8.toNat_add]; exact Nat.mod_le _ _
      omega
  have h1 := key s.locations 0
  have h2 : 1 < (s.locations.foldl (fun acc l => acc + l.repeatCount) (0 : UInt8)).toNat := h.2
  rw [show (0 : UInt8).toNat = 0 from rfl] at h1
  omega

theorem bestOf_release_mem (seqs : List Sequence) (n : Nat) (s : Sequence) (h : Release.bestOf seqs = some (n, s)) : s ∈ seqs ∧ Release.worthwhile s = true := by
  have key : ∀ (l : List Sequence) (b : Option (Nat × Sequence)), (∀ n s, b = some (n, s) → s ∈ seqs ∧ Release.worthwhile s = true) → (∀ s ∈ l, s ∈ seqs) →
      ∀ n s, l.foldl (fun best s =>
        if Release.worthwhile s then
          match best with
          | none => some (Release.score s, s)
          | some (b, t) => if b ≤ Release.score s then some (Release.score s, s) else some (b, t)
        else best) b = some (n, s) → s ∈ seqs ∧ Release.worthwhile s = true := by
    intro l
    induction l with
    | nil => intro b hb _ n s h; exact hb n s h
    | cons x l ih =>
      intro b hb hl n s h
      rw [List.foldl_cons] at h
      refine ih _ ?_ (fun y hy => hl y (by simp [hy])) n s h
      intro n' s' e
      by_cases hw : Release.worthwhile x = true
      · rw [if_pos hw] at e
        cases b with
        | none => cases e; exact ⟨hl x (by simp), hw⟩
        | some p =>
          obtain ⟨b0, t0⟩ := p
          simp only at e
          split at e
          · cases e; exact ⟨hl x (by simp), hw⟩
          · cases e; exact hb _ _ rfl
      · rw [if_neg hw] at e
        exact hb _ _ e
  exact key seqs none (by simp) (fun _ h => h) n s h

/-- The tree and its sequences are those of the checked build. -/
theorem release_tree (tracks : List (List PCmd)) (top : Nat) : buildTree tracks top = .ok (Release.buildTree tracks top) ∧
    (Release.buildTree tracks top).sequences = .ok (Release.sequences (Release.buildTree tracks top)) ∧
    ∀ s ∈ Release.sequences (Release.buildTree tracks top), Candidate (tracks.take top) s := by
  obtain ⟨tree, seqs, h1, h2, h3⟩ := candidates_ok tracks top
  have e1 : tree = Release.buildTree tracks top := by
    rcases buildTree_release tracks top with e | e
    · rw [h1] at e; cases e; rfl
    · rw [h1] at e; cases e
  subst e1
  have e2 : seqs = Release.sequences (Release.buildTree tracks top) := by
    rcases sequences_release (Release.buildTree tracks top) with e | e
    · rw [h2] at e; cases e; rfl
    · rw [h2] at e; cases e
  subst e2
  exact ⟨h1, h2, h3⟩

theorem release_best (tracks : List (List PCmd)) (top : Nat) (s : Sequence) (h : Release.bestSequence (Release.buildTree tracks top) = some s) :
    Candidate (tracks.take top) s ∧ 3 < s.commands.length ∧ 2 ≤ (s.locations.map fun l => l.repeatCount.toNat).sum := by
  unfold Release.bestSequence at h
  rw [Option.map_eq_some_iff] at h
  obtain ⟨⟨n, s'⟩, h1, rfl⟩ := h
  obtain ⟨h2, h3⟩ := bestOf_release_mem _ _ _ h1
  exact ⟨(release_tree tracks top).2.2 _ h2, worthwhile_release_spec _ h3⟩

theorem sum_split (tracks : List (List PCmd)) (top : Nat) : (tracks.map List.length).sum = topLevelSize tracks top + ((tracks.drop top).map List.length).sum := by
  unfold topLevelSize
  rw [← List.sum_append, ← List.map_append, List.take_append_drop]

theorem release_optimize (top fuel : Nat) : ∀ tracks : List (List PCmd), top ≤ tracks.length → topLevelSize tracks top < fuel →
    ∃ out, Release.optimizeFuel fuel tracks top = .ok out ∧ Rounds top tracks out ∧ (out.map List.length).sum ≤ (tracks.map List.length).sum := by
  induction fuel with
  | zero => intro tracks _ h; omega
  | succ fuel ih =>
    intro tracks htop hf
    rw [Release.optimizeFuel]
    cases hb : Release.bestSequence (Release.buildTree tracks top) with
    | none => exact ⟨tracks, rfl, .done _, le_rfl⟩
    | some s =>
      obtain ⟨hc, g2, g3⟩ := release_best tracks top s hb
      obtain ⟨out1, e1, e2, e3⟩ := round_shrinks tracks s top htop hc.1 g2 g3
      obtain ⟨h1, h2, new, h3, h4⟩ := hc.extracted g2 e1
      obtain ⟨out, i1, i2, i3⟩ := ih out1 (by omega) (by omega)
      refine ⟨out, ?_, ?_, ?_⟩
      · simp only [bind, Except.bind, e1]
        exact i1
      · rw [h3] at i2
        exact .round s.commands new h1 h2 h4 i2
      · have a1 := sum_split tracks top
        have a2 := sum_split out1 top
        have hl : new.length = top := by rw [← h4.length_eq, List.length_take]; omega
        have a3 : out1.drop top = tracks.drop top ++ [s.commands] := by
          rw [h3, List.append_assoc, List.drop_left' hl]
        rw [a3, List.map_append, List.sum_append, List.map_singleton, List.sum_singleton] at a2
        omega

theorem Extracted.mem {s : List PCmd} {k : Nat} {a b : List PCmd} (h : Extracted s k a b) :
    ∀ c ∈ b, c ∈ a ∨ ∃ n : UInt8, c.command = .callLoop k n ∧ 1 ≤ n.toNat ∧ n.toNat ≤ 4 := by
  induction h with
  | done => simp
  | keep c h ih =>
    intro d hd
    rcases List.mem_cons.1 hd with rfl | hd
    · exact .inl (by simp)
    · exact (ih d hd).imp (fun h => by simp [h]) id
  | call n hn h ih =>
    intro d hd
    rcases List.mem_cons.1 hd with rfl | hd
    · refine .inr ⟨n, rfl, ?_⟩
      rcases hn with rfl | rfl <;> decide
    · exact (ih d hd).imp (fun h => by simp [h]) id
  | third x hx h ih =>
    intro d hd
    rcases List.mem_cons.1 hd with rfl | hd
    · exact .inr ⟨3, rfl, by decide, by decide⟩
    · exact (ih d hd).imp (fun h => by simp [h]) id
  | fourth x hx h ih =>
    intro d hd
    rcases List.mem_cons.1 hd with rfl | hd
    · exact .inr ⟨4, rfl, by decide, by decide⟩
    · exact (ih d hd).imp (fun h => by simp [h]) id

/-- The calls that rounds leave: they name one of the tracks after the first `top` ones, which has four or more commands and no calls, one to four times. -/
theorem Rounds.loops {top : Nat} {tracks out : List (List PCmd)} (h : Rounds top tracks out) (ht : top ≤ tracks.length)
    (hc : ∀ tr ∈ tracks, ∀ c ∈ tr, ∀ t n, c.command = .callLoop t n → top ≤ t ∧ t < tracks.length ∧ 1 ≤ n.toNat ∧ n.toNat ≤ 4)
    (hs : ∀ j b, top ≤ j → tracks[j]? = some b → 4 ≤ b.length ∧ ∀ c ∈ b, c.isCall = false) :
    (∀ tr ∈ out, ∀ c ∈ tr, ∀ t n, c.command = .callLoop t n → top ≤ t ∧ t < out.length ∧ 1 ≤ n.toNat ∧ n.toNat ≤ 4) ∧
    (∀ j b, top ≤ j → out[j]? = some b → 4 ≤ b.length ∧ ∀ c ∈ b, c.isCall = false) := by
  induction h with
  | done tracks => exact ⟨hc, hs⟩
  | @round tracks out s new h4 hcs hn h ih =>
    have hl : new.length = top := by rw [← hn.length_eq, List.length_take]; omega
    have hlen : (new ++ tracks.drop top ++ [s]).length = tracks.length + 1 := by
      simp only [List.length_append, List.length_drop, List.length_singleton]; omega
    refine ih (by omega) ?_ ?_
    · intro tr htr c hm t n e
      rw [hlen]
      rcases List.mem_append.1 htr with htr | htr
      · rcases List.mem_append.1 htr with htr | htr
        · obtain ⟨i, hi, rfl⟩ := List.getElem_of_mem htr
          have hi' : i < (tracks.take top).length := by rw [hn.length_eq]; exact hi
          have := (List.forall₂_iff_get.1 hn).2 i hi' hi
          rcases this.mem c (by simpa using hm) with hm | ⟨m, e', h1, h2⟩
          · have := hc _ (List.mem_of_mem_take (List.getElem_mem hi')) c (by simpa using hm) t n e
            omega
          · rw [e] at e'; cases e'
            omega
        · have := hc tr (List.mem_of_mem_drop htr) c hm t n e
          omega
      · rw [List.mem_singleton] at htr; subst htr
        have := hcs c hm
        simp [PCmd.isCall, e] at this
    · intro j b hj hb
      rw [List.append_assoc, List.getElem?_append_right (by omega), hl] at hb
      by_cases hj' : j < tracks.length
      · rw [List.getElem?_append_left (by rw [List.length_drop]; omega), List.getElem?_drop, show top + (j - top) = j by omega] at hb
        exact hs j b hj hb
      · rw [List.getElem?_append_right (by rw [List.length_drop]; omega), List.length_drop] at hb
        cases hx : j - top - (tracks.length - top) with
        | zero => rw [hx] at hb; cases hb; exact ⟨h4, hcs⟩
        | succ k => rw [hx] at hb; cases hb

/-! ### Sequences that are missed -/

theorem blocks_release (n k : Nat) (hk : 1 ≤ k) (hn : 1 ≤ n) (h : n * k % 256 ≤ 1) :
    Release.optimizeCallLoops (List.replicate n (loopBlocks k)) n = .ok (List.replicate n (loopBlocks k)) := by
  obtain ⟨h1, h2, -⟩ := release_tree (List.replicate n (loopBlocks k)) n
  unfold Release.optimizeCallLoops
  rw [Release.optimizeFuel]
  have hb : Release.bestSequence (Release.buildTree (List.replicate n (loopBlocks k)) n) = none := by
    generalize Release.buildTree (List.replicate n (loopBlocks k)) n = tree at *
    rcases blocks_tree n k hk tree h1 with ⟨h0, -⟩ | ⟨ms, b, c, d, rfl, g1, g2, g3, -⟩
    · have : 0 < n * k := Nat.mul_pos hn hk
      omega
    · cases hr : Release.bestSequence (blockTree (locsOf ms) b c d) with
      | none => rfl
      | some s =>
        exfalso
        unfold Release.bestSequence at hr
        rw [Option.map_eq_some_iff] at hr
        obtain ⟨⟨m, s'⟩, r1, rfl⟩ := hr
        obtain ⟨r2, r3⟩ := bestOf_release_mem _ _ _ r1
        unfold Release.worthwhile at r3
        simp only [decide_eq_true_eq] at r3
        obtain ⟨r3, r4⟩ := r3
        have hs : s' = ⟨[1, 2, 3, 4].map noteCmd, Release.consolidate (locsOf ms) 4⟩ := by
          have hp : (blockTree (locsOf ms) b c d).paths [] = [([1, 2, 3, 4].map noteCmd, locsOf ms), ([2, 3, 4].map noteCmd, b), ([3, 4].map noteCmd, c), ([4].map noteCmd, d)] := rfl
          unfold Release.sequences at r2
          rw [hp] at r2
          simp only [List.map_cons, List.map_nil, List.mem_cons, List.not_mem_nil, or_false] at r2
          rcases r2 with rfl | rfl | rfl | rfl
          · rfl
          · exact absurd r3 (by simp)
          · exact absurd r3 (by simp)
          · exact absurd r3 (by simp)
        have hcon : Release.consolidate (locsOf ms) 4 = ms.map fun m => ⟨m.1.1, m.1.2, 1⟩ := by
          rcases consolidate_release (locsOf ms) 4 with e | e
          · rw [consolidate_blocks ms g2 g3] at e; exact (Except.ok.inj e).symm
          · rw [consolidate_blocks ms g2 g3] at e; cases e
        rw [hs, hcon] at r4
        have key : ∀ (l : List ((Nat × Nat) × Nat)) (a : UInt8),
            ((l.map fun m => (⟨m.1.1, m.1.2, 1⟩ : Location)).foldl (fun acc l => acc + l.repeatCount) a).toNat = (a.toNat + l.length) % 256 := by
          intro l
          induction l with
          | nil => intro a; simp [Nat.mod_eq_of_lt a.toNat_lt]
          | cons x l ih =>
            intro a
            rw [List.map_cons, List.foldl_cons, ih, UInt8.toNat_add, List.length_cons]
            simp only [show (1 : UInt8).toNat = 1 from rfl]
            omega
        have r5 : 1 < ((ms.map fun m => (⟨m.1.1, m.1.2, 1⟩ : Location)).foldl (fun acc l => acc + l.repeatCount) (0 : UInt8)).toNat := r4
        rw [key ms 0, g1, show (0 : UInt8).toNat = 0 from rfl, Nat.zero_add] at r5
        omega
  rw [hb]

end M2S
