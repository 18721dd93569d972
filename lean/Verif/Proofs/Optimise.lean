import Verif.Proofs.Extract
/-
The rounds of the loop optimiser.
-/
namespace M2S

/-! ### Only panics -/

theorem panicOnly_addLocation (ls : List Location) (t i L : Nat) : PanicOnly (addLocation ls t i L) := by
  induction ls with
  | nil => exact panicOnly_ok _
  | cons l ls ih =>
    rw [addLocation]; split_ifs
    · exact (panicOnly_addU8 _ _).bind fun _ _ => panicOnly_pure _
    · exact ih.bind fun _ _ => panicOnly_pure _

theorem panicOnly_addCommands (t i n : Nat) : ∀ (commands : List PCmd) (tree : SeqTree) (L : Nat), commands.length ≤ n → PanicOnly (addCommands tree commands t i L) := by
  induction n with
  | zero =>
    intro commands tree L h
    have : commands = [] := List.length_eq_zero_iff.1 (by omega)
    subst this
    rw [addCommands_unfold]
    refine PanicOnly.bind ?_ fun _ _ => panicOnly_pure _
    split_ifs
    · exact panicOnly_addLocation _ _ _ _
    · exact panicOnly_pure _
  | succ n ih =>
    intro commands tree L h
    rw [addCommands_unfold]
    refine PanicOnly.bind ?_ fun locs _ => ?_
    · split_ifs
      · exact panicOnly_addLocation _ _ _ _
      · exact panicOnly_pure _
    cases commands with
    | nil => exact panicOnly_pure _
    | cons c cs =>
      simp only
      cases findEdge c tree.edges with
      | none => exact panicOnly_pure _
      | some k =>
        simp only
        cases tree.edges[k]? with
        | none => exact panicOnly_pure _
        | some e =>
          obtain ⟨ecmds, target⟩ := e
          simp only
          split_ifs with h1 h2 h3
          · exact (panicOnly_addLocation _ _ _ _).bind fun _ _ => (ih _ _ _ (by rw [List.length_drop]; omega)).bind fun _ _ => panicOnly_pure _
          · exact (panicOnly_addLocation _ _ _ _).bind fun _ _ => (panicOnly_pure _).bind fun _ _ => panicOnly_pure _
          · refine PanicOnly.bind (panicOnly_foldlM _ _ (fun _ _ => panicOnly_addLocation _ _ _ _) _) fun _ _ => ?_
            exact (ih _ _ _ (by rw [List.length_drop]; omega)).bind fun _ _ => panicOnly_pure _
          · exact panicOnly_pure _

theorem panicOnly_buildTree (tracks : List (List PCmd)) (top : Nat) : PanicOnly (buildTree tracks top) := by
  unfold buildTree
  apply panicOnly_foldlM
  intro t x
  unfold addTrack
  exact panicOnly_foldlM _ _ (fun T i => panicOnly_addCommands _ _ _ _ _ _ le_rfl) _

theorem panicOnly_consolidate (ls : List Location) (L : Nat) : PanicOnly (consolidate ls L) := by
  have key : ∀ (ls : List Location) (cur : Location), PanicOnly (consolidate.go L cur ls) := by
    intro ls
    induction ls with
    | nil => intro cur; exact panicOnly_ok _
    | cons l ls ih =>
      intro cur
      rw [consolidate.go]; split_ifs
      · exact ih cur
      · exact (panicOnly_addU8 _ _).bind fun _ _ => ih _
      · exact (ih l).bind fun _ _ => panicOnly_pure _
  unfold consolidate
  cases ls with
  | nil => exact panicOnly_ok _
  | cons l ls => exact key ls l

theorem panicOnly_bestSequence (tree : SeqTree) : PanicOnly (bestSequence tree) := by
  unfold bestSequence
  refine PanicOnly.bind ?_ fun seqs _ => PanicOnly.bind ?_ fun _ _ => panicOnly_pure _
  · unfold SeqTree.sequences
    apply panicOnly_mapM
    intro p
    exact (panicOnly_consolidate _ _).bind fun _ _ => panicOnly_pure _
  · unfold bestOf
    apply panicOnly_foldlM
    intro best s
    refine PanicOnly.bind ?_ fun w _ => ?_
    · unfold Sequence.worthwhile
      split_ifs
      · exact (panicOnly_foldlM _ _ (fun _ _ => panicOnly_addU8 _ _) _).bind fun _ _ => panicOnly_pure _
      · exact panicOnly_pure _
    · cases w with
      | false => exact panicOnly_pure _
      | true =>
        simp only [if_true]
        refine PanicOnly.bind (panicOnly_subU _ _) fun sc _ => ?_
        cases best with
        | none => exact panicOnly_pure _
        | some b => exact panicOnly_pure _

/-! ### Rounds -/

/-- One round of the optimiser. -/
def Round (top : Nat) (tracks : List (List PCmd)) (s : Sequence) (out : List (List PCmd)) : Prop :=
  ∃ tree, buildTree tracks top = .ok tree ∧ bestSequence tree = .ok (some s) ∧ extractSequence tracks s top = .ok out

theorem Round.facts {top : Nat} {tracks out : List (List PCmd)} {s : Sequence} (htop : top ≤ tracks.length) (h : Round top tracks s out) :
    SeqOk (tracks.take top) s ∧ 3 < s.commands.length ∧ 2 ≤ (s.locations.map fun l => l.repeatCount.toNat).sum ∧ out.length = tracks.length + 1 ∧
      topLevelSize out top + s.commands.length + 2 ≤ topLevelSize tracks top := by
  obtain ⟨tree, h1, h2, h3⟩ := h
  obtain ⟨g1, g2, g3⟩ := bestSequence_ok tracks top tree s h1 h2
  obtain ⟨out', e1, e2, e3⟩ := round_shrinks tracks s top htop g1 g2 g3
  rw [h3] at e1; cases e1
  exact ⟨g1, g2, g3, e2, e3⟩

/-- A successful run of the optimiser: either nothing is worth extracting, or a round and the rest. -/
theorem optimizeFuel_succ (fuel : Nat) (tracks out : List (List PCmd)) (top : Nat) (h : optimizeFuel (fuel + 1) tracks top = .ok out) :
    (out = tracks ∧ ∃ tree, buildTree tracks top = .ok tree ∧ bestSequence tree = .ok none) ∨
    ∃ s tracks1, Round top tracks s tracks1 ∧ optimizeFuel fuel tracks1 top = .ok out := by
  rw [optimizeFuel] at h
  rw [res_bind] at h
  obtain ⟨tree, h1, h⟩ := h
  rw [res_bind] at h
  obtain ⟨b, h2, h⟩ := h
  cases b with
  | none =>
    simp only [res_pure] at h
    exact .inl ⟨h.symm, tree, h1, h2⟩
  | some s =>
    simp only [res_bind] at h
    obtain ⟨tracks1, h3, h4⟩ := h
    exact .inr ⟨s, tracks1, ⟨tree, h1, h2, h3⟩, h4⟩

/-- Enough fuel is always enough, and more makes no difference. -/
theorem optimizeFuel_total (top : Nat) (n : Nat) : ∀ (tracks : List (List PCmd)) (fuel : Nat), top ≤ tracks.length → topLevelSize tracks top ≤ n →
    topLevelSize tracks top < fuel → PanicOnly (optimizeFuel fuel tracks top) ∧ ∀ fuel', topLevelSize tracks top < fuel' →
      optimizeFuel fuel' tracks top = optimizeFuel fuel tracks top := by
  induction n using Nat.strongRecOn with
  | _ n ih =>
    intro tracks fuel htop hn hf
    obtain ⟨f, rfl⟩ : ∃ f, fuel = f + 1 := ⟨fuel - 1, by omega⟩
    have step : ∀ s out, (∃ tree, buildTree tracks top = .ok tree ∧ bestSequence tree = .ok (some s)) → extractSequence tracks s top = .ok out →
        ∀ g, topLevelSize tracks top < g + 1 → topLevelSize out top < g ∧ topLevelSize out top < n ∧ top ≤ out.length := by
      intro s out ⟨tree, h1, h2⟩ h3 g hg
      have := (Round.facts htop ⟨tree, h1, h2, h3⟩)
      omega
    constructor
    · rw [optimizeFuel]
      refine PanicOnly.bind (panicOnly_buildTree _ _) fun tree h1 => PanicOnly.bind (panicOnly_bestSequence _) fun b h2 => ?_
      cases b with
      | none => exact panicOnly_pure _
      | some s =>
        simp only
        obtain ⟨g1, g2, g3⟩ := bestSequence_ok tracks top tree s h1 h2
        obtain ⟨out, e1, -, -⟩ := round_shrinks tracks s top htop g1 g2 g3
        rw [e1]
        obtain ⟨k1, k2, k3⟩ := step s out ⟨tree, h1, h2⟩ e1 f hf
        exact (panicOnly_ok out).bind fun o ho => by
          cases ho
          exact (ih (topLevelSize out top) k2 out f k3 le_rfl k1).1
    · intro fuel' hf'
      obtain ⟨f', rfl⟩ : ∃ f, fuel' = f + 1 := ⟨fuel' - 1, by omega⟩
      rw [optimizeFuel, optimizeFuel]
      cases h1 : buildTree tracks top with
      | error e => rfl
      | ok tree =>
        simp only [bind, Except.bind]
        cases h2 : bestSequence tree with
        | error e => rfl
        | ok b =>
          cases b with
          | none => rfl
          | some s =>
            simp only
            cases h3 : extractSequence tracks s top with
            | error e => rfl
            | ok out =>
              obtain ⟨k1, k2, k3⟩ := step s out ⟨tree, h1, h2⟩ h3 f hf
              obtain ⟨k4, -, -⟩ := step s out ⟨tree, h1, h2⟩ h3 f' hf'
              exact (ih (topLevelSize out top) k2 out f k3 le_rfl k1).2 f' k4

/-! ### Well-formed loops -/

/-- Subroutines are made of loopable commands and do not begin with a tie; calls name subroutines, at least once. -/
structure LoopsOk (top : Nat) (tracks : List (List PCmd)) : Prop where
  sub : ∀ j b, top ≤ j → tracks[j]? = some b → 3 < b.length ∧ (∀ c ∈ b, c.callLoopEligible = true) ∧ (∀ c, b.head? = some c → c.canBeFirst = true)
  call : ∀ tr ∈ tracks, ∀ c ∈ tr, ∀ t n, c.command = .callLoop t n → top ≤ t ∧ t < tracks.length ∧ 1 ≤ n.toNat

theorem eligible_no_call {c : PCmd} (h : c.callLoopEligible = true) (t : Nat) (n : UInt8) : c.command ≠ .callLoop t n := by
  intro h'; unfold PCmd.callLoopEligible at h; rw [h'] at h; cases h

theorem Round.loopsOk {top : Nat} {tracks out : List (List PCmd)} {s : Sequence} (htop : top ≤ tracks.length) (h : Round top tracks s out)
    (hl : LoopsOk top tracks) : LoopsOk top out := by
  obtain ⟨g1, g2, g3, g4, -⟩ := h.facts htop
  obtain ⟨tree, -, -, he⟩ := h
  obtain ⟨newTop, rfl, hn, hg⟩ := extractSequence_inv tracks s top out he
  have hnl : newTop.length = top := by rw [hn, List.length_take]; omega
  constructor
  · intro j b hj hb
    rw [List.append_assoc, List.getElem?_append_right (by omega), hnl] at hb
    by_cases hlt : j - top < (tracks.drop top).length
    · rw [List.getElem?_append_left hlt, List.getElem?_drop, show top + (j - top) = j by omega] at hb
      exact hl.sub j b hj hb
    · rw [List.getElem?_append_right (by omega)] at hb
      have hz : j - top - (tracks.drop top).length = 0 := by
        have := (List.getElem?_eq_some_iff.1 hb).1
        simpa using this
      rw [hz] at hb
      simp only [List.getElem?_cons_zero, Option.some.injEq] at hb
      subst hb
      refine ⟨g2, g1.eligible, ?_⟩
      intro c hc
      cases hf : c.canBeFirst with
      | true => rfl
      | false =>
        obtain ⟨l, hl, hr⟩ := g1.tie c hc hf
        rw [hl] at g3
        simp [hr] at g3
  · intro tr htr c hc t n hcmd
    rw [g4]
    rw [List.mem_append, List.mem_append] at htr
    rcases htr with (htr | htr) | htr
    · obtain ⟨i, hi⟩ := List.mem_iff_getElem?.1 htr
      have hilt := (List.getElem?_eq_some_iff.1 hi).1
      have hilt' : i < (tracks.take top).length := by omega
      obtain ⟨o, ho, hx⟩ := hg i _ (List.getElem?_eq_getElem hilt')
      rw [hi] at ho; cases ho
      rcases extractTrack_mem _ _ _ _ _ _ hx c hc with hm | ⟨l, hlm, rfl⟩
      · have := hl.call _ (List.mem_of_mem_take (List.getElem_mem hilt')) c hm t n hcmd
        omega
      · simp only [loopCmd, Command.callLoop.injEq] at hcmd
        obtain ⟨rfl, rfl⟩ := hcmd
        exact ⟨htop, by omega, g1.once l (List.mem_filter.1 hlm).1⟩
    · have := hl.call _ (List.mem_of_mem_drop htr) c hc t n hcmd
      omega
    · rw [List.mem_singleton] at htr
      subst htr
      exact absurd hcmd (eligible_no_call (g1.eligible c hc) t n)

theorem optimizeFuel_loopsOk (top fuel : Nat) : ∀ (tracks out : List (List PCmd)), top ≤ tracks.length → LoopsOk top tracks →
    optimizeFuel fuel tracks top = .ok out → LoopsOk top out ∧ tracks.length ≤ out.length := by
  induction fuel with
  | zero => intro tracks out _ _ h; cases h
  | succ fuel ih =>
    intro tracks out htop hl h
    rcases optimizeFuel_succ fuel tracks out top h with ⟨rfl, -⟩ | ⟨s, tracks1, hr, h⟩
    · exact ⟨hl, le_rfl⟩
    · have hlen := (hr.facts htop).2.2.2.1
      have := ih tracks1 out (by omega) (hr.loopsOk htop hl) h
      exact ⟨this.1, by omega⟩

/-! ### Expansion -/

theorem expand_append (ts : List (List PCmd)) (x y : List PCmd) : expand ts (x ++ y) = expand ts x ++ expand ts y := by
  unfold expand; rw [List.flatMap_append]

theorem expand_self (ts : List (List PCmd)) (x : List PCmd) (h : ∀ c ∈ x, ∀ t n, c.command ≠ .callLoop t n) : expand ts x = x := by
  induction x with
  | nil => rfl
  | cons c x ih =>
    have h1 : expandCmd ts c = [c] := by
      unfold expandCmd
      split
      · rename_i t n hc; exact absurd hc (h c (by simp) t n)
      · rfl
    have := ih (fun d hd => h d (by simp [hd]))
    unfold expand at *
    rw [List.flatMap_cons, h1, this]; rfl

theorem mem_copies {n : Nat} {b : List PCmd} {c : PCmd} (h : c ∈ copies n b) : c ∈ b := by
  unfold copies at h
  rw [List.mem_flatten] at h
  obtain ⟨l, hl, hc⟩ := h
  rw [List.eq_of_mem_replicate hl] at hc; exact hc

/-- Every location of the sequence has the claimed number of copies. -/
def Truthful (tracks : List (List PCmd)) (s : Sequence) : Prop :=
  ∀ l ∈ s.locations, ∃ tr, tracks[l.trackIdx]? = some tr ∧ copies l.repeatCount.toNat s.commands <+: tr.drop l.cmdIdx

theorem truthful_of_le_two {tracks : List (List PCmd)} {s : Sequence} (h : SeqOk tracks s) (h2 : ∀ l ∈ s.locations, l.repeatCount.toNat ≤ 2) : Truthful tracks s := by
  intro l hl
  obtain ⟨tr, ht, w, hw⟩ := h.occurs l hl
  refine ⟨tr, ht, ?_⟩
  have h1 := h.once l hl
  have h2 := h2 l hl
  rcases (show l.repeatCount.toNat = 1 ∨ l.repeatCount.toNat = 2 by omega) with hr | hr
  · rw [hr, copies_succ, copies_zero, List.append_nil]; exact ⟨w, hw⟩
  · obtain ⟨tr', ht', w', hw'⟩ := h.twice l hl (by omega)
    rw [ht] at ht'; cases ht'
    rw [← List.drop_drop, ← hw, List.drop_left] at hw'
    rw [hr, copies_succ, copies_succ, copies_zero, List.append_nil]
    exact ⟨w', by rw [← hw, ← hw', List.append_assoc]⟩

/-- Extraction of a candidate at true locations can be undone, track by track. -/
theorem extract_unroll {top : Nat} {tracks out : List (List PCmd)} {s : Sequence} (h : SeqOk (tracks.take top) s)
    (ht : Truthful (tracks.take top) s) (hcall : ∀ tr ∈ tracks, ∀ c ∈ tr, ∀ n, c.command ≠ .callLoop tracks.length n)
    (he : extractSequence tracks s top = .ok out) : ∃ newTop, out = newTop ++ tracks.drop top ++ [s.commands] ∧ newTop.length = (tracks.take top).length ∧
      ∀ (i : Nat) (tr : List PCmd), (tracks.take top)[i]? = some tr → ∃ o, newTop[i]? = some o ∧ unroll tracks.length s.commands o = tr := by
  obtain ⟨newTop, h1, h2, h3⟩ := extractSequence_inv tracks s top out he
  refine ⟨newTop, h1, h2, ?_⟩
  intro i tr hi
  obtain ⟨o, ho, hx⟩ := h3 i tr hi
  refine ⟨o, ho, ?_⟩
  have hmem : tr ∈ tracks := List.mem_of_mem_take (List.mem_of_getElem? hi)
  obtain ⟨o', ho', hu, -⟩ := extractTrack_unroll tr s.commands tracks.length (hcall tr hmem) (s.locations.filter fun l => l.trackIdx = i) 0 (Nat.zero_le _) (by
    intro l hl
    simp only [List.mem_filter, decide_eq_true_eq] at hl
    obtain ⟨hl, rfl⟩ := hl
    refine ⟨Nat.zero_le _, ?_, ?_⟩
    · obtain ⟨tr', ht', hc⟩ := ht l hl
      rw [hi] at ht'; cases ht'; exact hc
    · have := occurs_length (h.occurs l hl) hi h.ne; omega) (by
    refine List.Pairwise.imp_of_mem ?_ (List.Pairwise.filter (fun l : Location => decide (l.trackIdx = i)) h.apart)
    intro a b ha hb hab
    simp only [List.mem_filter, decide_eq_true_eq] at ha hb
    rcases hab with hab | hab
    · omega
    · exact hab.2)
  rw [hx] at ho'; cases ho'
  rw [hu, List.drop_zero]

/-- Expanding after a truthful round gives what expanding before it gave; no call is lost. -/
theorem Round.expand {top : Nat} {tracks out : List (List PCmd)} {s : Sequence} (htop : top ≤ tracks.length) (h : Round top tracks s out)
    (hl : LoopsOk top tracks) (ht : Truthful (tracks.take top) s) (i : Nat) (hi : i < top) :
    M2S.expand out (out.getD i []) = M2S.expand tracks (tracks.getD i []) ∧ ∀ c ∈ tracks.getD i [], c.isCall = true → c ∈ out.getD i [] := by
  have hl' := h.loopsOk htop hl
  obtain ⟨g1, g2, g3, g4, -⟩ := h.facts htop
  obtain ⟨tree, -, -, he⟩ := h
  obtain ⟨newTop, hout, hn, hu⟩ := extract_unroll g1 ht (by
    intro tr htr c hc n hcmd
    have := hl.call tr htr c hc _ _ hcmd
    omega) he
  have hnl : newTop.length = top := by rw [hn, List.length_take]; omega
  have hilt : i < (tracks.take top).length := by rw [List.length_take]; omega
  obtain ⟨o, ho, hx⟩ := hu i _ (List.getElem?_eq_getElem hilt)
  have e1 : out.getD i [] = o := by
    rw [List.getD_eq_getElem?_getD, hout, List.append_assoc, List.getElem?_append_left (by omega), ho]; rfl
  have e2 : tracks.getD i [] = (tracks.take top)[i] := by
    rw [List.getD_eq_getElem?_getD, List.getElem_take, List.getElem?_eq_getElem (by omega)]; rfl
  have ho_mem : o ∈ out := by
    rw [hout]; exact List.mem_append_left _ (List.mem_append_left _ (List.mem_of_getElem? ho))
  rw [e1, e2, ← hx]
  have hnc : ∀ c ∈ s.commands, ∀ t n, c.command ≠ .callLoop t n := fun c hc t n => eligible_no_call (g1.eligible c hc) t n
  constructor
  · have key : ∀ x : List PCmd, (∀ c ∈ x, ∀ t n, c.command = .callLoop t n → top ≤ t ∧ t < out.length) →
        M2S.expand out x = M2S.expand tracks (unroll tracks.length s.commands x) := by
      intro x
      induction x with
      | nil => intro _; rfl
      | cons c x ih =>
        intro hx
        have ih := ih (fun d hd => hx d (by simp [hd]))
        unfold M2S.expand unroll at *
        rw [List.flatMap_cons, List.flatMap_cons, List.flatMap_append, ih]
        congr 1
        cases hc : c.command with
        | callLoop t n =>
          obtain ⟨b1, b2⟩ := hx c (by simp) t n hc
          unfold unrollCmd
          simp only [hc]
          by_cases hk : t = tracks.length
          · rw [if_pos hk]
            have : M2S.expand tracks (copies n.toNat s.commands) = copies n.toNat s.commands :=
              expand_self _ _ (fun d hd => hnc d (mem_copies hd))
            unfold M2S.expand at this
            rw [this]
            unfold expandCmd
            simp only [hc]
            congr 1
            rw [List.getD_eq_getElem?_getD, hout, List.getElem?_append_right (by rw [List.length_append, List.length_drop]; omega)]
            rw [List.length_append, List.length_drop, show t - (newTop.length + (tracks.length - top)) = 0 by omega]; rfl
          · rw [if_neg hk, List.flatMap_cons, List.flatMap_nil, List.append_nil]
            unfold expandCmd
            simp only [hc]
            congr 1
            rw [List.getD_eq_getElem?_getD, List.getD_eq_getElem?_getD, hout, List.append_assoc, List.getElem?_append_right (by omega),
              List.getElem?_append_left (by rw [List.length_drop]; omega), List.getElem?_drop, show top + (t - newTop.length) = t by omega]
        | _ => simp [unrollCmd, expandCmd, hc]
    exact key o (fun c hc t n hcmd => by have := hl'.call o ho_mem c hc t n hcmd; omega)
  · intro c hc hcall
    unfold unroll at hc
    rw [List.mem_flatMap] at hc
    obtain ⟨d, hd, hcd⟩ := hc
    have hcc : c ∉ s.commands := by
      intro hm
      unfold PCmd.isCall at hcall
      split at hcall
      · rename_i t n hcmd; exact hnc c hm t n hcmd
      · cases hcall
    unfold unrollCmd at hcd
    split at hcd
    · split_ifs at hcd
      · exact absurd (mem_copies hcd) hcc
      · rw [List.mem_singleton] at hcd; rw [hcd]; exact hd
    · rw [List.mem_singleton] at hcd; rw [hcd]; exact hd

/-- Every location's call is in the new track. -/
theorem Round.calls {top : Nat} {tracks out : List (List PCmd)} {s : Sequence} (htop : top ≤ tracks.length) (h : Round top tracks s out) :
    ∀ l ∈ s.locations, l.trackIdx < top ∧ loopCmd tracks.length l.repeatCount ∈ out.getD l.trackIdx [] := by
  intro l hl
  obtain ⟨g1, -⟩ := h.facts htop
  obtain ⟨tree, -, -, he⟩ := h
  obtain ⟨newTop, hout, hn, hg⟩ := extractSequence_inv tracks s top out he
  obtain ⟨tr, ht, -⟩ := g1.occurs l hl
  have hlt := (List.getElem?_eq_some_iff.1 ht).1
  obtain ⟨o, ho, hx⟩ := hg _ tr ht
  have hlt2 := hlt
  rw [List.length_take] at hlt2
  refine ⟨by omega, ?_⟩
  have e1 : out.getD l.trackIdx [] = o := by
    rw [List.getD_eq_getElem?_getD, hout, List.append_assoc, List.getElem?_append_left (by omega), ho]; rfl
  rw [e1]
  exact extractTrack_call _ _ _ _ _ _ hx l (List.mem_filter.2 ⟨hl, by simp⟩)

/-- If no call of the result has a count above 2, expansion gives back the tracks. -/
theorem optimizeFuel_two (top fuel : Nat) : ∀ (tracks out : List (List PCmd)), top ≤ tracks.length → LoopsOk top tracks →
    optimizeFuel fuel tracks top = .ok out →
    (∀ i < top, ∀ c ∈ out.getD i [], ∀ t n, c.command = .callLoop t n → n.toNat ≤ 2) →
    ∀ i < top, expand out (out.getD i []) = expand tracks (tracks.getD i []) ∧ ∀ c ∈ tracks.getD i [], c.isCall = true → c ∈ out.getD i [] := by
  induction fuel with
  | zero => intro tracks out _ _ h; cases h
  | succ fuel ih =>
    intro tracks out htop hl h h2 i hi
    rcases optimizeFuel_succ fuel tracks out top h with ⟨rfl, -⟩ | ⟨s, tracks1, hr, h⟩
    · exact ⟨rfl, fun c hc _ => hc⟩
    · have hlen := (hr.facts htop).2.2.2.1
      have IH := ih tracks1 out (by omega) (hr.loopsOk htop hl) h h2
      have hT : Truthful (tracks.take top) s := by
        apply truthful_of_le_two (hr.facts htop).1
        intro l hlm
        obtain ⟨hlt, hm⟩ := hr.calls htop l hlm
        exact h2 _ hlt _ ((IH _ hlt).2 _ hm rfl) _ _ rfl
      obtain ⟨r1, r2⟩ := hr.expand htop hl hT i hi
      obtain ⟨q1, q2⟩ := IH i hi
      exact ⟨q1.trans r1, fun c hc hcall => q2 c (r2 c hc hcall) hcall⟩

/-- If nothing of four or more commands is repeated immediately in the expanded tracks, expansion gives them back. -/
theorem optimizeFuel_squarefree (top fuel : Nat) : ∀ (tracks out : List (List PCmd)), top ≤ tracks.length → LoopsOk top tracks →
    optimizeFuel fuel tracks top = .ok out →
    (∀ i < top, ∀ w, 4 ≤ w.length → ¬ (w ++ w) <:+: expand tracks (tracks.getD i [])) →
    ∀ i < top, expand out (out.getD i []) = expand tracks (tracks.getD i []) := by
  induction fuel with
  | zero => intro tracks out _ _ h; cases h
  | succ fuel ih =>
    intro tracks out htop hl h hsq i hi
    rcases optimizeFuel_succ fuel tracks out top h with ⟨rfl, -⟩ | ⟨s, tracks1, hr, h⟩
    · rfl
    · obtain ⟨g1, g2, -, hlen, -⟩ := hr.facts htop
      have hT : Truthful (tracks.take top) s := by
        apply truthful_of_le_two g1
        intro l hlm
        by_contra hgt
        obtain ⟨tr, ht, w, hw⟩ := g1.occurs l hlm
        obtain ⟨tr', ht', w', hw'⟩ := g1.twice l hlm (by omega)
        rw [ht] at ht'; cases ht'
        rw [← List.drop_drop, ← hw, List.drop_left] at hw'
        have hlt := (List.getElem?_eq_some_iff.1 ht).1
        rw [List.length_take] at hlt
        refine hsq l.trackIdx (by omega) s.commands (by omega) ?_
        have e : tracks.getD l.trackIdx [] = tr := by
          rw [List.getElem?_take_of_lt (by omega)] at ht
          rw [List.getD_eq_getElem?_getD, ht]; rfl
        have hs : expand tracks s.commands = s.commands := expand_self _ _ (fun c hc t n => eligible_no_call (g1.eligible c hc) t n)
        rw [e, ← List.take_append_drop l.cmdIdx tr, ← hw, ← hw', expand_append, expand_append, expand_append, hs]
        exact ⟨expand tracks (tr.take l.cmdIdx), expand tracks w', by simp⟩
      have hex := fun j hj => (hr.expand htop hl hT j hj).1
      rw [ih tracks1 out (by omega) (hr.loopsOk htop hl) h (fun j hj w hw => by rw [hex j hj]; exact hsq j hj w hw) i hi]
      exact hex i hi

end M2S
