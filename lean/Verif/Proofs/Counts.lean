import Verif.Proofs.Optimise
import Verif.Proofs.Complete
import Verif.Spec.Counts
/-
How large the repeat counts of the sequence tree get.
-/
namespace M2S

/-- Positions in the order of the scan. -/
def posLe (a b : Nat × Nat) : Prop := a.1 < b.1 ∨ (a.1 = b.1 ∧ a.2 ≤ b.2)

theorem addU8_lt {a b : UInt8} (h : a.toNat + b.toNat < 256) : ∃ c, addU8 a b = .ok c ∧ c.toNat = a.toNat + b.toNat := by
  unfold addU8
  rw [if_pos h]
  exact ⟨_, rfl, by rw [UInt8.toNat_add]; exact Nat.mod_eq_of_lt h⟩

/-- What the locations say about the positions `A` that were recorded, in order, for a sequence of `L` commands. -/
structure Recorded (L : Nat) (A : List (Nat × Nat)) (locs : List Location) : Prop where
  sub : (locs.map Location.pos).Sublist A
  adj : ∀ a ∈ locs, ∀ b ∈ locs, ¬ (a.trackIdx = b.trackIdx ∧ a.cmdIdx + L = b.cmdIdx)
  cnt : ∀ a ∈ locs, 1 ≤ a.repeatCount.toNat ∧ a.repeatCount.toNat ≤ 1 + A.count (a.trackIdx, a.cmdIdx + L)

theorem Recorded.add {L : Nat} {A : List (Nat × Nat)} {locs : List Location} (h : Recorded L A locs) (hL : 1 ≤ L) (t i : Nat)
    (hle : ∀ p ∈ A, posLe p (t, i)) (hc : A.count (t, i) ≤ 1) :
    ∃ locs', addLocation locs t i L = .ok locs' ∧ Recorded L (A ++ [(t, i)]) locs' := by
  have hex : ∃ locs', addLocation locs t i L = .ok locs' := by
    have : ∀ ls : List Location, (∀ a ∈ ls, a ∈ locs) → ∃ locs', addLocation ls t i L = .ok locs' := by
      intro ls
      induction ls with
      | nil => intro _; exact ⟨_, rfl⟩
      | cons a ls ih =>
        intro hs
        rw [addLocation]
        split_ifs with hm
        · have := (h.cnt a (hs a (by simp))).2
          rw [hm.1, hm.2] at this
          obtain ⟨c, hc, -⟩ := addU8_lt (a := a.repeatCount) (b := 1) (by rw [show (1 : UInt8).toNat = 1 from rfl]; omega)
          rw [hc]; exact ⟨_, rfl⟩
        · obtain ⟨l', hl'⟩ := ih (fun b hb => hs b (by simp [hb]))
          rw [hl']; exact ⟨_, rfl⟩
    exact this locs fun _ h => h
  obtain ⟨locs', he⟩ := hex
  refine ⟨locs', he, ?_⟩
  have hcount : ∀ p, A.count p ≤ (A ++ [(t, i)]).count p := fun p => by rw [List.count_append]; omega
  have hall : ∀ a ∈ locs, posLe a.pos (t, i) := fun a ha => hle _ (h.sub.subset (List.mem_map_of_mem ha))
  by_cases hm : ∃ a ∈ locs, a.trackIdx = t ∧ a.cmdIdx + L = i
  · rcases addLocation_cases t i L locs locs' he with rfl | ⟨a, x, k, b, rfl, -, hx1, hx2, hk, rfl⟩
    · exfalso
      -- a matching location is always used
      obtain ⟨a, ha, h1, h2⟩ := hm
      have : ∀ ls : List Location, a ∈ ls → addLocation ls t i L ≠ .ok (ls ++ [⟨t, i, 1⟩]) := by
        intro ls
        induction ls with
        | nil => intro h; simp at h
        | cons y ls ih =>
          intro hy hh
          rw [addLocation] at hh
          split_ifs at hh with hc2
          · simp only [res_bind, res_pure] at hh
            obtain ⟨k, -, hh⟩ := hh
            have := congrArg List.length hh
            simp at this
          · rcases List.mem_cons.1 hy with rfl | hy
            · exact hc2 ⟨h1, h2⟩
            · simp only [res_bind, res_pure] at hh
              obtain ⟨ls', h3, hh⟩ := hh
              rw [List.cons_append, List.cons.injEq] at hh
              rw [hh.2] at h3
              exact ih hy h3
      exact this locs ha he
    · have hpos : (a ++ { x with repeatCount := k } :: b).map Location.pos = (a ++ x :: b).map Location.pos := by
        simp [Location.pos]
      have hmem : ∀ y ∈ a ++ { x with repeatCount := k } :: b, ∃ z ∈ a ++ x :: b, z.trackIdx = y.trackIdx ∧ z.cmdIdx = y.cmdIdx ∧
          (y.repeatCount = z.repeatCount ∨ (y = { x with repeatCount := k } ∧ z = x)) := by
        intro y hy
        rcases List.mem_append.1 hy with hy | hy
        · exact ⟨y, by simp [hy], rfl, rfl, .inl rfl⟩
        · rcases List.mem_cons.1 hy with rfl | hy
          · exact ⟨x, by simp, rfl, rfl, .inr ⟨rfl, rfl⟩⟩
          · exact ⟨y, by simp [hy], rfl, rfl, .inl rfl⟩
      refine ⟨?_, ?_, ?_⟩
      · rw [hpos]; exact h.sub.trans (List.sublist_append_left _ _)
      · intro y hy z hz
        obtain ⟨y', hy', e1, e2, -⟩ := hmem y hy
        obtain ⟨z', hz', e3, e4, -⟩ := hmem z hz
        rw [← e1, ← e2, ← e3, ← e4]
        exact h.adj y' hy' z' hz'
      · intro y hy
        obtain ⟨z, hz, e1, e2, e3⟩ := hmem y hy
        obtain ⟨c1, c2⟩ := h.cnt z hz
        rw [← e1, ← e2]
        rcases e3 with e3 | ⟨rfl, rfl⟩
        · rw [e3]; exact ⟨c1, c2.trans (by have := hcount (z.trackIdx, z.cmdIdx + L); omega)⟩
        · simp only [hk]
          rw [hx1, hx2] at c2 ⊢
          rw [List.count_append, List.count_singleton_self]
          omega
  · rcases addLocation_cases t i L locs locs' he with rfl | ⟨a, x, k, b, rfl, -, hx1, hx2, hk, rfl⟩
    · refine ⟨?_, ?_, ?_⟩
      · rw [List.map_append]
        exact List.Sublist.append h.sub (List.Sublist.refl _)
      · intro a ha b hb hab
        rcases List.mem_append.1 ha with ha | ha
        · rcases List.mem_append.1 hb with hb | hb
          · exact h.adj a ha b hb hab
          · rw [List.mem_singleton] at hb; subst hb
            exact hm ⟨a, ha, hab⟩
        · rw [List.mem_singleton] at ha; subst ha
          rcases List.mem_append.1 hb with hb | hb
          · have := hall b hb
            unfold posLe Location.pos at this
            simp only at this hab
            omega
          · rw [List.mem_singleton] at hb; subst hb
            simp only at hab; omega
      · intro a ha
        rcases List.mem_append.1 ha with ha | ha
        · obtain ⟨c1, c2⟩ := h.cnt a ha
          exact ⟨c1, c2.trans (by have := hcount (a.trackIdx, a.cmdIdx + L); omega)⟩
        · rw [List.mem_singleton] at ha; subst ha
          rw [show (1 : UInt8).toNat = 1 from rfl]
          omega
    · exact absurd ⟨x, by simp, hx1, hx2⟩ hm

/-- The locations of a node for the sequence `w`, when the scan stands at `(t, i)` and has recorded that position at most `k` times. -/
def Grown (tracks : List (List PCmd)) (t i k : Nat) (w : List PCmd) (locs : List Location) : Prop :=
  ∃ A : List (Nat × Nat), Recorded w.length A locs ∧ A.Pairwise posLe ∧ (∀ p ∈ A, posLe p (t, i)) ∧ (∀ p, A.count p ≤ 2) ∧ A.count (t, i) ≤ k ∧
    ∀ p ∈ A, Occurs tracks w p.1 p.2

theorem Grown.mono {tracks : List (List PCmd)} {t i k k' : Nat} {w : List PCmd} {locs : List Location} (h : Grown tracks t i k w locs) (hk : k ≤ k') :
    Grown tracks t i k' w locs := by
  obtain ⟨A, h1, h2, h3, h4, h5, h6⟩ := h
  exact ⟨A, h1, h2, h3, h4, by omega, h6⟩

theorem Grown.next {tracks : List (List PCmd)} {t i k t' i' : Nat} {w : List PCmd} {locs : List Location} (h : Grown tracks t i k w locs)
    (h' : t < t' ∨ (t = t' ∧ i < i')) : Grown tracks t' i' 0 w locs := by
  obtain ⟨A, h1, h2, h3, h4, h5, h6⟩ := h
  refine ⟨A, h1, h2, ?_, h4, ?_, h6⟩
  · intro p hp; have := h3 p hp; unfold posLe at *; simp only at *; omega
  · rw [Nat.le_zero, List.count_eq_zero]
    intro hm; have := h3 _ hm; unfold posLe at this; simp only at this; omega

theorem Grown.add {tracks : List (List PCmd)} {t i k : Nat} {w : List PCmd} {locs : List Location} (h : Grown tracks t i k w locs) (hk : k ≤ 1) (hw : w ≠ [])
    (ho : Occurs tracks w t i) : ∃ locs', addLocation locs t i w.length = .ok locs' ∧ Grown tracks t i (k + 1) w locs' := by
  obtain ⟨A, h1, h2, h3, h4, h5, h6⟩ := h
  obtain ⟨locs', e, hr⟩ := h1.add (List.length_pos_iff.2 hw) t i h3 (by omega)
  refine ⟨locs', e, A ++ [(t, i)], hr, ?_, ?_, ?_, ?_, ?_⟩
  · rw [List.pairwise_append]
    refine ⟨h2, by simp, ?_⟩
    intro a ha b hb
    rw [List.mem_singleton] at hb; subst hb; exact h3 a ha
  · intro p hp
    rcases List.mem_append.1 hp with hp | hp
    · exact h3 p hp
    · rw [List.mem_singleton] at hp; subst hp; exact .inr ⟨rfl, le_rfl⟩
  · intro p
    rw [List.count_append]
    by_cases hp : p = (t, i)
    · subst hp; rw [List.count_singleton_self]; omega
    · rw [List.count_singleton, if_neg (by simpa using fun h => hp h.symm)]; exact h4 p
  · rw [List.count_append, List.count_singleton_self]; omega
  · intro p hp
    rcases List.mem_append.1 hp with hp | hp
    · exact h6 p hp
    · rw [List.mem_singleton] at hp; subst hp; exact ho

theorem Grown.nil (tracks : List (List PCmd)) (t i k : Nat) (w : List PCmd) : Grown tracks t i k w [] :=
  ⟨[], ⟨by simp, by simp, by simp⟩, .nil, by simp, by simp, by simp, by simp⟩

theorem Grown.one {tracks : List (List PCmd)} {t i : Nat} {w : List PCmd} (hw : w ≠ []) (ho : Occurs tracks w t i) : Grown tracks t i 1 w [⟨t, i, 1⟩] := by
  obtain ⟨l, h1, h2⟩ := (Grown.nil tracks t i 0 w).add (by omega) hw ho
  simp only [addLocation, Except.ok.injEq] at h1
  rw [h1]; exact h2

/-- The positions recorded for the longer sequence can all be recorded for the shorter one. -/
theorem Grown.readd {tracks : List (List PCmd)} {t i k : Nat} {w v : List PCmd} {old : List Location} (h : Grown tracks t i k (w ++ v) old) (hw : w ≠ []) :
    ∃ nl, readdLocations old w.length [] = .ok nl ∧ Grown tracks t i k w nl := by
  obtain ⟨A, h1, h2, h3, h4, h5, h6⟩ := h
  have hsub := h1.sub
  clear h1
  -- every initial part of the old positions
  have key : ∀ (rest done : List Location) (acc : List Location), old = done ++ rest → Recorded w.length (done.map Location.pos) acc →
      ∃ nl, readdLocations rest w.length acc = .ok nl ∧ Recorded w.length (old.map Location.pos) nl := by
    intro rest
    induction rest with
    | nil =>
      intro done acc hd hr
      rw [List.append_nil] at hd; subst hd
      exact ⟨acc, rfl, hr⟩
    | cons l rest ih =>
      intro done acc hd hr
      have hsub' : (done.map Location.pos ++ [l.pos]).Sublist A := by
        refine List.Sublist.trans ?_ hsub
        rw [hd, show done ++ l :: rest = (done ++ [l]) ++ rest by simp, List.map_append, List.map_append]
        exact List.sublist_append_left _ _
      obtain ⟨acc', e, hr'⟩ := hr.add (List.length_pos_iff.2 hw) l.trackIdx l.cmdIdx (by
        have := List.Pairwise.sublist hsub' h2
        rw [List.pairwise_append] at this
        intro p hp
        exact this.2.2 p hp l.pos (by simp)) (by
        have h7 := (hsub'.count_le (l.trackIdx, l.cmdIdx)).trans (h4 _)
        rw [List.count_append, show [l.pos] = [(l.trackIdx, l.cmdIdx)] from rfl, List.count_singleton_self] at h7
        omega)
      obtain ⟨nl, e2, hr2⟩ := ih (done ++ [l]) acc' (by simp [hd]) (by rw [List.map_append]; exact hr')
      refine ⟨nl, ?_, hr2⟩
      unfold readdLocations at e2 ⊢
      rw [List.foldlM_cons, e]
      exact e2
  obtain ⟨nl, e, hr⟩ := key old [] [] rfl ⟨by simp, by simp, by simp⟩
  refine ⟨nl, e, old.map Location.pos, hr, List.Pairwise.sublist hsub h2, fun p hp => h3 p (hsub.subset hp), fun p => (hsub.count_le p).trans (h4 p),
    (hsub.count_le _).trans h5, fun p hp => Occurs.prefix (h6 p (hsub.subset hp))⟩

/-- All nodes below a node. -/
def TreeGrown (tracks : List (List PCmd)) (t i k : Nat) (pre : List PCmd) (tree : SeqTree) : Prop :=
  ∀ p ∈ tree.paths pre, p.1 ≠ [] ∧ Grown tracks t i k p.1 p.2

theorem TreeGrown.mono {tracks : List (List PCmd)} {t i k k' : Nat} {pre : List PCmd} {tree : SeqTree} (h : TreeGrown tracks t i k pre tree) (hk : k ≤ k') :
    TreeGrown tracks t i k' pre tree := fun p hp => ⟨(h p hp).1, (h p hp).2.mono hk⟩

theorem TreeGrown.next {tracks : List (List PCmd)} {t i k t' i' : Nat} {pre : List PCmd} {tree : SeqTree} (h : TreeGrown tracks t i k pre tree)
    (h' : t < t' ∨ (t = t' ∧ i < i')) : TreeGrown tracks t' i' 0 pre tree := fun p hp => ⟨(h p hp).1, (h p hp).2.next h'⟩

theorem treeGrown_node {tracks : List (List PCmd)} {t i k : Nat} {pre : List PCmd} {ls : List Location} {es : List (List PCmd × SeqTree)} :
    TreeGrown tracks t i k pre (.node ls es) ↔
      ∀ e ∈ es, pre ++ e.1 ≠ [] ∧ Grown tracks t i k (pre ++ e.1) e.2.locations ∧ TreeGrown tracks t i k (pre ++ e.1) e.2 := by
  unfold TreeGrown
  constructor
  · intro h e he
    have := h (pre ++ e.1, e.2.locations) ((mem_paths _ _ _ _).2 ⟨e, he, .inl rfl⟩)
    exact ⟨this.1, this.2, fun p hp => h p ((mem_paths _ _ _ _).2 ⟨e, he, .inr hp⟩)⟩
  · intro h p hp
    obtain ⟨e, he, hp⟩ := (mem_paths _ _ _ _).1 hp
    obtain ⟨h1, h2, h3⟩ := h e he
    rcases hp with rfl | hp
    · exact ⟨h1, h2⟩
    · exact h3 p hp

theorem addCommands_grown (tracks : List (List PCmd)) (t i : Nat) (tr : List PCmd) (ht : tracks[t]? = some tr) (n : Nat) : ∀ (commands pre : List PCmd) (tree : SeqTree),
    commands.length ≤ n → tr.drop i = pre ++ commands → TreeGrown tracks t i 0 pre tree → (pre ≠ [] → Grown tracks t i 1 pre tree.locations) →
    ∃ tree', addCommands tree commands t i pre.length = .ok tree' ∧ TreeGrown tracks t i 2 pre tree' ∧ (pre ≠ [] → Grown tracks t i 2 pre tree'.locations) := by
  induction n with
  | zero =>
    intro commands pre tree hlen hdrop hT hpre
    have : commands = [] := List.length_eq_zero_iff.1 (by omega)
    subst this
    obtain ⟨ls, es⟩ := tree
    rw [addCommands_unfold]
    by_cases hne : pre = []
    · subst hne
      rw [if_neg (by simp)]
      refine ⟨_, rfl, ?_, fun h => absurd rfl h⟩
      rw [treeGrown_node] at hT ⊢
      intro e he
      obtain ⟨h1, h2, h3⟩ := hT e he
      exact ⟨h1, h2.mono (by omega), h3.mono (by omega)⟩
    · have ho : Occurs tracks pre t i := ⟨tr, ht, by rw [hdrop]; exact List.prefix_append _ _⟩
      obtain ⟨locs, e, hg⟩ := (hpre hne).add (by omega) hne ho
      rw [if_pos (List.length_pos_iff.2 hne), e]
      refine ⟨_, rfl, ?_, fun _ => hg⟩
      rw [treeGrown_node] at hT ⊢
      intro e he
      obtain ⟨h1, h2, h3⟩ := hT e he
      exact ⟨h1, h2.mono (by omega), h3.mono (by omega)⟩
  | succ n ih =>
    intro commands pre tree hlen hdrop hT hpre
    obtain ⟨ls, es⟩ := tree
    have hocc : ∀ q, q <+: pre ++ commands → Occurs tracks q t i := fun q hq => ⟨tr, ht, by rw [hdrop]; exact hq⟩
    obtain ⟨locs, hl1, hlocs⟩ : ∃ locs, (if pre.length > 0 then addLocation ls t i pre.length else pure ls) = .ok locs ∧ (pre ≠ [] → Grown tracks t i 2 pre locs) := by
      by_cases hne : pre = []
      · subst hne
        exact ⟨ls, by rw [if_neg (by simp)]; rfl, fun h => absurd rfl h⟩
      · obtain ⟨locs, e, hg⟩ := (hpre hne).add (by omega) hne (hocc pre (List.prefix_append _ _))
        exact ⟨locs, by rw [if_pos (List.length_pos_iff.2 hne)]; exact e, fun _ => hg⟩
    rw [treeGrown_node] at hT
    have hT2 : ∀ e ∈ es, pre ++ e.1 ≠ [] ∧ Grown tracks t i 2 (pre ++ e.1) e.2.locations ∧ TreeGrown tracks t i 2 (pre ++ e.1) e.2 := by
      intro e he
      obtain ⟨h1, h2, h3⟩ := hT e he
      exact ⟨h1, h2.mono (by omega), h3.mono (by omega)⟩
    rw [addCommands_unfold]
    rw [show (SeqTree.node ls es).locations = ls from rfl, show (SeqTree.node ls es).edges = es from rfl, hl1]
    simp only [bind, Except.bind]
    cases commands with
    | nil => exact ⟨_, rfl, treeGrown_node.2 hT2, hlocs⟩
    | cons c cs =>
      simp only
      have fresh_ok : TreeGrown tracks t i 2 pre (.node locs (es ++ freshEdge (c :: cs) t i)) := by
        rw [treeGrown_node]
        intro e hee
        rcases List.mem_append.1 hee with hee | hee
        · exact hT2 e hee
        · unfold freshEdge at hee
          simp only at hee
          split_ifs at hee with hc
          · simp at hee
          · simp only [List.mem_singleton] at hee
            subst hee
            have hne : pre ++ (c :: cs).takeWhile PCmd.callLoopEligible ≠ [] := by
              intro h0
              rw [List.append_eq_nil_iff] at h0
              exact hc (by rw [show List.takeWhile PCmd.callLoopEligible (c :: cs) = [] from h0.2]; rfl)
            have hpre' : pre ++ (c :: cs).takeWhile PCmd.callLoopEligible <+: pre ++ c :: cs := (List.prefix_append_right_inj _).2 (List.takeWhile_prefix _)
            refine ⟨hne, (Grown.one hne (hocc _ hpre')).mono (by omega), ?_⟩
            rw [treeGrown_node]; simp
      cases hf : findEdge c es with
      | none => exact ⟨_, rfl, fresh_ok, hlocs⟩
      | some k =>
        simp only
        cases hk : es[k]? with
        | none => exact ⟨_, rfl, fresh_ok, hlocs⟩
        | some e =>
          obtain ⟨ecmds, target⟩ := e
          simp only
          have hmem : (ecmds, target) ∈ es := List.mem_of_getElem? hk
          obtain ⟨he0, he1, he2⟩ := hT _ hmem
          simp only at he0 he1 he2
          obtain ⟨p1, p2, p3⟩ := prefixLen_spec (c :: cs) ecmds
          generalize hm : prefixLen (c :: cs) ecmds = m at *
          by_cases hcond : m ≠ 0 ∧ c.canBeFirst = true
          · rw [if_pos hcond]
            by_cases hfull : m = ecmds.length
            · rw [if_pos hfull]
              have hsplit : ecmds ++ (c :: cs).drop m = c :: cs := by
                have : ecmds = (c :: cs).take m := by rw [p3, hfull, List.take_length]
                rw [this]
                exact List.take_append_drop _ _
              have hpre1 : pre ++ ecmds <+: pre ++ c :: cs := by
                rw [← hsplit, ← List.append_assoc]; exact List.prefix_append _ _
              have hl : pre.length + m = (pre ++ ecmds).length := by rw [List.length_append, hfull]
              rw [hl]
              obtain ⟨tl, g1, hg1⟩ := he1.add (by omega) he0 (hocc _ hpre1)
              rw [g1]
              simp only
              obtain ⟨tls, tes⟩ := target
              have hT3 : TreeGrown tracks t i 0 (pre ++ ecmds) (.node tl tes) := by rw [treeGrown_node] at he2 ⊢; exact he2
              obtain ⟨target', g2, r1, r2⟩ : ∃ target', (if m < (c :: cs).length then addCommands (.node tl tes) ((c :: cs).drop m) t i (pre ++ ecmds).length
                  else pure (.node tl tes)) = .ok target' ∧ TreeGrown tracks t i 2 (pre ++ ecmds) target' ∧ Grown tracks t i 2 (pre ++ ecmds) target'.locations := by
                by_cases hmore : m < (c :: cs).length
                · rw [if_pos hmore]
                  obtain ⟨x, x1, x2, x3⟩ := ih ((c :: cs).drop m) (pre ++ ecmds) (.node tl tes) (by rw [List.length_drop]; omega)
                    (by rw [hdrop, List.append_assoc, hsplit]) hT3 (fun _ => hg1)
                  exact ⟨x, x1, x2, x3 he0⟩
                · rw [if_neg hmore]
                  exact ⟨_, rfl, hT3.mono (by omega), hg1.mono (by omega)⟩
              rw [show (SeqTree.node tls tes).edges = tes from rfl, g2]
              refine ⟨_, rfl, ?_, hlocs⟩
              rw [treeGrown_node]
              intro e hee
              rcases List.mem_or_eq_of_mem_set hee with hee | rfl
              · exact hT2 e hee
              · exact ⟨he0, r2, r1⟩
            · rw [if_neg hfull]
              have hsplit : (c :: cs).take m ++ ecmds.drop m = ecmds := by rw [p3]; exact List.take_append_drop _ _
              have hl : pre.length + m = (pre ++ (c :: cs).take m).length := by
                rw [List.length_append, List.length_take, Nat.min_eq_left p1]
              rw [hl]
              have htne : pre ++ (c :: cs).take m ≠ [] := by
                intro h0
                rw [List.append_eq_nil_iff] at h0
                have := congrArg List.length h0.2
                rw [List.length_take, Nat.min_eq_left p1] at this
                exact hcond.1 this
              have hsplit2 : (pre ++ (c :: cs).take m) ++ ecmds.drop m = pre ++ ecmds := by rw [List.append_assoc, hsplit]
              obtain ⟨nl, g1, hg1⟩ := Grown.readd (w := pre ++ (c :: cs).take m) (v := ecmds.drop m) (by rw [hsplit2]; exact he1) htne
              rw [g1]
              simp only
              have hT3 : TreeGrown tracks t i 0 (pre ++ (c :: cs).take m) (.node nl [(ecmds.drop m, target)]) := by
                rw [treeGrown_node]
                intro e hee
                simp only [List.mem_singleton] at hee
                subst hee
                simp only [hsplit2]
                exact ⟨he0, he1, he2⟩
              obtain ⟨newT, x1, x2, x3⟩ := ih ((c :: cs).drop m) (pre ++ (c :: cs).take m) _ (by rw [List.length_drop]; omega)
                (by rw [hdrop, List.append_assoc, List.take_append_drop]) hT3 (fun _ => hg1.mono (by omega))
              rw [x1]
              refine ⟨_, rfl, ?_, hlocs⟩
              rw [treeGrown_node]
              intro e hee
              rcases List.mem_or_eq_of_mem_set hee with hee | rfl
              · exact hT2 e hee
              · exact ⟨htne, x3 htne, x2⟩
          · rw [if_neg hcond]
            exact ⟨_, rfl, fresh_ok, hlocs⟩

theorem addTrack_grown (tracks : List (List PCmd)) (t : Nat) (tr : List PCmd) (ht : tracks[t]? = some tr) (tree : SeqTree)
    (h : TreeGrown tracks t 0 0 [] tree) : ∃ tree', addTrack tree tr t = .ok tree' ∧ TreeGrown tracks t tr.length 0 [] tree' := by
  have key : ∀ (n s : Nat) (tree : SeqTree), TreeGrown tracks t s 0 [] tree →
      ∃ tree', (List.range' s n).foldlM (fun T i => addCommands T (tr.drop i) t i 0) tree = .ok tree' ∧ TreeGrown tracks t (s + n) 0 [] tree' := by
    intro n
    induction n with
    | zero => intro s tree h; exact ⟨tree, rfl, h⟩
    | succ n ih =>
      intro s tree h
      rw [List.range'_succ, List.foldlM_cons]
      obtain ⟨T1, h1, h2, -⟩ := addCommands_grown tracks t s tr ht _ (tr.drop s) [] tree le_rfl rfl h (fun h => absurd rfl h)
      rw [List.length_nil] at h1
      rw [h1]
      obtain ⟨T2, h3, h4⟩ := ih (s + 1) T1 (h2.next (.inr ⟨rfl, by omega⟩))
      exact ⟨T2, h3, by rwa [show s + 1 + n = s + (n + 1) by omega] at h4⟩
  obtain ⟨T, h1, h2⟩ := key tr.length 0 tree h
  rw [Nat.zero_add] at h2
  exact ⟨T, by unfold addTrack; rw [List.range_eq_range']; exact h1, h2⟩

/-- The tree of tracks can always be built, and how large its counts are. -/
theorem buildTree_grown (tracks : List (List PCmd)) (top : Nat) : ∃ tree t i, buildTree tracks top = .ok tree ∧ TreeGrown (tracks.take top) t i 0 [] tree := by
  unfold buildTree
  generalize hT : tracks.take top = T
  have key : ∀ (l : List (List PCmd)) (k : Nat) (tree0 : SeqTree), (∀ j, l[j]? = T[k + j]?) → TreeGrown T k 0 0 [] tree0 →
      ∃ tree, (l.zipIdx k).foldlM (fun t x => addTrack t x.1 x.2) tree0 = .ok tree ∧ TreeGrown T (k + l.length) 0 0 [] tree := by
    intro l
    induction l with
    | nil => intro k tree0 _ h; exact ⟨tree0, rfl, h⟩
    | cons a l ih =>
      intro k tree0 hl h
      rw [List.zipIdx_cons, List.foldlM_cons]
      have ha : T[k]? = some a := by rw [← Nat.add_zero k, ← hl 0]; rfl
      obtain ⟨T1, h1, h2⟩ := addTrack_grown T k a ha tree0 h
      rw [h1]
      obtain ⟨T2, h3, h4⟩ := ih (k + 1) T1 (fun j => by rw [show k + 1 + j = k + (j + 1) by omega, ← hl (j + 1)]; rfl) (h2.next (.inl (by omega)))
      exact ⟨T2, h3, by rwa [show k + 1 + l.length = k + (l.length + 1) by omega] at h4⟩
  have h0 : TreeGrown T 0 0 0 [] (.node [] []) := by
    rw [treeGrown_node]; simp
  obtain ⟨tree, h1, h2⟩ := key T 0 _ (fun j => by rw [Nat.zero_add]) h0
  exact ⟨tree, _, _, h1, h2⟩

/-! ### Consolidation -/

/-- Places, one after the other, at which the sequence stands within what a location covers. -/
structure Stands (tracks : List (List PCmd)) (w : List PCmd) (l : Location) (os : List Nat) : Prop where
  le : l.repeatCount.toNat ≤ 4
  occ : ∀ o ∈ os, Occurs tracks w l.trackIdx o ∧ l.cmdIdx ≤ o ∧ o + w.length ≤ l.cmdIdx + w.length * l.repeatCount.toNat
  apart : os.Pairwise fun a b => a + w.length ≤ b
  many : 2 * l.repeatCount.toNat ≤ 3 * os.length
  fourth : l.repeatCount.toNat = 4 → Occurs tracks w l.trackIdx (l.cmdIdx + w.length * 3)
  near : ∃ o ∈ os, l.cmdIdx + w.length * l.repeatCount.toNat ≤ o + 2 * w.length

theorem consolidate_go_held (tracks : List (List PCmd)) (w : List PCmd) (locs : List Location)
    (hadj : ∀ a ∈ locs, ∀ b ∈ locs, ¬ (a.trackIdx = b.trackIdx ∧ a.cmdIdx + w.length = b.cmdIdx))
    (hloc : ∀ l ∈ locs, Occurs tracks w l.trackIdx l.cmdIdx ∧ 1 ≤ l.repeatCount.toNat ∧ l.repeatCount.toNat ≤ 3 ∧
      (2 ≤ l.repeatCount.toNat → Occurs tracks w l.trackIdx (l.cmdIdx + w.length))) (ls : List Location) : ∀ cur : Location, (∀ l ∈ ls, l ∈ locs) →
    (cur ∈ locs ∨ ((∃ b ∈ locs, b.trackIdx = cur.trackIdx ∧ b.cmdIdx + w.length = cur.cmdIdx + w.length * cur.repeatCount.toNat) ∧
      ∃ os, Stands tracks w cur os)) →
    ∃ out, consolidate.go w.length cur ls = .ok out ∧ ∀ l ∈ out, ∃ os, Stands tracks w l os := by
  have fresh : ∀ l ∈ locs, ∃ os, Stands tracks w l os := by
    intro l hl
    obtain ⟨h1, h2, h3, h4⟩ := hloc l hl
    rcases (show l.repeatCount.toNat = 1 ∨ l.repeatCount.toNat = 2 ∨ l.repeatCount.toNat = 3 by omega) with e | e | e
    · exact ⟨[l.cmdIdx], by omega, by simp [h1, e], by simp, by simp [e], by omega, l.cmdIdx, by simp, by rw [e]; omega⟩
    · refine ⟨[l.cmdIdx, l.cmdIdx + w.length], by omega, ?_, by simp, by simp [e], by omega, l.cmdIdx + w.length, by simp, by rw [e]; omega⟩
      have := h4 (by omega)
      rw [e]
      simp only [List.mem_cons, List.not_mem_nil, or_false, forall_eq_or_imp, forall_eq, h1, this, true_and]
      omega
    · refine ⟨[l.cmdIdx, l.cmdIdx + w.length], by omega, ?_, by simp, by simp [e], by omega, l.cmdIdx + w.length, by simp, by rw [e]; omega⟩
      have := h4 (by omega)
      rw [e]
      simp only [List.mem_cons, List.not_mem_nil, or_false, forall_eq_or_imp, forall_eq, h1, this, true_and]
      omega
  induction ls with
  | nil =>
    intro cur _ hc
    refine ⟨[cur], rfl, ?_⟩
    simp only [List.mem_singleton, forall_eq]
    rcases hc with hc | ⟨-, hc⟩
    · exact fresh cur hc
    · exact hc
  | cons l ls ih =>
    intro cur hls hc
    have hl := hls l (by simp)
    have hls' : ∀ x ∈ ls, x ∈ locs := fun x hx => hls x (by simp [hx])
    rw [consolidate.go]
    split_ifs with hc1 hc2
    · exact ih cur hls' hc
    · rcases hc with hc | ⟨⟨b, hb, b1, b2⟩, -⟩
      · obtain ⟨h1, h2, h3, h4⟩ := hloc cur hc
        obtain ⟨k, hk, hk2⟩ := addU8_lt (a := cur.repeatCount) (b := 1) (by rw [show (1 : UInt8).toNat = 1 from rfl]; omega)
        rw [show (1 : UInt8).toNat = 1 from rfl] at hk2
        rw [hk]
        refine ih { cur with repeatCount := k } hls' (.inr ⟨⟨l, hl, hc2.1.symm, ?_⟩, ?_⟩)
        · simp only [hk2]
          rw [Nat.mul_add, Nat.mul_one]; omega
        · have ho := (hloc l hl).1
          rw [← hc2.1, ← hc2.2] at ho
          rcases (show cur.repeatCount.toNat = 1 ∨ cur.repeatCount.toNat = 2 ∨ cur.repeatCount.toNat = 3 by omega) with e | e | e
          · exfalso
            refine hadj cur hc l hl ⟨hc2.1, ?_⟩
            rw [← hc2.2, e, Nat.mul_one]
          · rw [e] at ho hk2
            refine ⟨[cur.cmdIdx, cur.cmdIdx + w.length, cur.cmdIdx + w.length * 2], by simp only; omega, ?_, ?_, by simp [hk2], by simp only; omega, cur.cmdIdx + w.length * 2, by simp, by simp only [hk2]; omega⟩
            · simp only [hk2, List.mem_cons, List.not_mem_nil, or_false, forall_eq_or_imp, forall_eq, h1, h4 (by omega), ho, true_and]
              omega
            · simp only [List.pairwise_cons, List.mem_cons, List.not_mem_nil, or_false, forall_eq_or_imp, forall_eq, List.Pairwise.nil, and_true, false_implies, implies_true]
              omega
          · rw [e] at ho hk2
            refine ⟨[cur.cmdIdx, cur.cmdIdx + w.length, cur.cmdIdx + w.length * 3], by simp only; omega, ?_, ?_, by simp [hk2], fun _ => ho, cur.cmdIdx + w.length * 3, by simp, by simp only [hk2]; omega⟩
            · simp only [hk2, List.mem_cons, List.not_mem_nil, or_false, forall_eq_or_imp, forall_eq, h1, h4 (by omega), ho, true_and]
              omega
            · simp only [List.pairwise_cons, List.mem_cons, List.not_mem_nil, or_false, forall_eq_or_imp, forall_eq, List.Pairwise.nil, and_true, false_implies, implies_true]
              omega
      · exfalso
        exact hadj b hb l hl ⟨b1.trans hc2.1, b2.trans hc2.2⟩
    · obtain ⟨out, e, ho⟩ := ih l hls' (.inl hl)
      rw [e]
      refine ⟨cur :: out, rfl, ?_⟩
      intro x hx
      rcases List.mem_cons.1 hx with rfl | hx
      · rcases hc with hc | ⟨-, hc⟩
        · exact fresh _ hc
        · exact hc
      · exact ho x hx

theorem Grown.consolidate {tracks : List (List PCmd)} {t i k : Nat} {w : List PCmd} {locs : List Location} (h : Grown tracks t i k w locs) :
    ∃ out, consolidate locs w.length = .ok out ∧ ∀ l ∈ out, ∃ os, Stands tracks w l os := by
  obtain ⟨A, h1, -, -, h4, -, h6⟩ := h
  have hloc : ∀ l ∈ locs, Occurs tracks w l.trackIdx l.cmdIdx ∧ 1 ≤ l.repeatCount.toNat ∧ l.repeatCount.toNat ≤ 3 ∧
      (2 ≤ l.repeatCount.toNat → Occurs tracks w l.trackIdx (l.cmdIdx + w.length)) := by
    intro l hl
    obtain ⟨c1, c2⟩ := h1.cnt l hl
    have c3 := h4 (l.trackIdx, l.cmdIdx + w.length)
    refine ⟨h6 l.pos (h1.sub.subset (List.mem_map_of_mem hl)), c1, by omega, ?_⟩
    intro h2
    exact h6 (l.trackIdx, l.cmdIdx + w.length) (List.count_pos_iff.1 (by omega))
  unfold M2S.consolidate
  cases locs with
  | nil => exact ⟨[], rfl, by simp⟩
  | cons l ls => exact consolidate_go_held tracks w (l :: ls) h1.adj hloc ls l (fun x hx => by simp [hx]) (.inl (by simp))

theorem mapM_ok {α β : Type} (f : α → Res β) (l : List α) (h : ∀ a ∈ l, ∃ b, f a = .ok b) : ∃ out, l.mapM f = .ok out := by
  induction l with
  | nil => exact ⟨[], rfl⟩
  | cons a l ih =>
    obtain ⟨b, hb⟩ := h a (by simp)
    obtain ⟨bs, hbs⟩ := ih (fun x hx => h x (by simp [hx]))
    exact ⟨b :: bs, by rw [List.mapM_cons, hb, hbs]; rfl⟩

/-- The candidate sequences can always be listed, and how large their counts are. -/
theorem sequences_held {tracks : List (List PCmd)} {t i k : Nat} {tree : SeqTree} (h : TreeGrown tracks t i k [] tree) :
    ∃ seqs, tree.sequences = .ok seqs ∧ ∀ s ∈ seqs, ∀ l ∈ s.locations, ∃ os, Stands tracks s.commands l os := by
  unfold SeqTree.sequences
  obtain ⟨seqs, hs⟩ := mapM_ok (fun p : List PCmd × List Location => do
    let ls ← consolidate p.2 p.1.length
    return (⟨p.1, ls⟩ : Sequence)) (tree.paths []) (by
      intro p hp
      obtain ⟨out, e, -⟩ := (h p hp).2.consolidate
      exact ⟨⟨p.1, out⟩, by rw [e]; rfl⟩)
  refine ⟨seqs, hs, ?_⟩
  intro s hss
  obtain ⟨p, hp, hf⟩ := mapM_mem _ _ _ hs s hss
  simp only [res_bind, res_pure] at hf
  obtain ⟨ls, h1, rfl⟩ := hf
  obtain ⟨out, e, ho⟩ := (h p hp).2.consolidate
  rw [h1] at e; cases e
  exact ho

/-! ### Sums -/

theorem held_places {tracks : List (List PCmd)} {w : List PCmd} (out : List Location) : (∀ l ∈ out, ∃ os, Stands tracks w l os) → Apart w.length out →
    ∃ ps : List (Nat × Nat), (∀ p ∈ ps, Occurs tracks w p.1 p.2 ∧ ∃ l ∈ out, p.1 = l.trackIdx ∧ l.cmdIdx ≤ p.2 ∧
      p.2 + w.length ≤ l.cmdIdx + w.length * l.repeatCount.toNat) ∧ Disjoint w.length ps ∧ 2 * (out.map fun l => l.repeatCount.toNat).sum ≤ 3 * ps.length := by
  induction out with
  | nil => intro _ _; exact ⟨[], by simp, .nil, by simp⟩
  | cons l out ih =>
    intro hh ha
    unfold Apart at ha
    rw [List.pairwise_cons] at ha
    obtain ⟨ps, h1, h2, h3⟩ := ih (fun x hx => hh x (by simp [hx])) ha.2
    obtain ⟨os, ho⟩ := hh l (by simp)
    refine ⟨os.map (fun o => (l.trackIdx, o)) ++ ps, ?_, ?_, ?_⟩
    · intro p hp
      rcases List.mem_append.1 hp with hp | hp
      · obtain ⟨o, hoo, rfl⟩ := List.mem_map.1 hp
        obtain ⟨k1, k2, k3⟩ := ho.occ o hoo
        exact ⟨k1, l, by simp, rfl, k2, k3⟩
      · obtain ⟨k1, x, hx, k2⟩ := h1 p hp
        exact ⟨k1, x, by simp [hx], k2⟩
    · unfold Disjoint
      rw [List.pairwise_append]
      refine ⟨?_, h2, ?_⟩
      · rw [List.pairwise_map]
        exact ho.apart.imp fun h => .inr ⟨rfl, h⟩
      · intro a haa b hb
        obtain ⟨o, hoo, rfl⟩ := List.mem_map.1 haa
        obtain ⟨-, -, k3⟩ := ho.occ o hoo
        obtain ⟨-, x, hx, e1, e2, -⟩ := h1 b hb
        have := ha.1 x hx
        simp only
        rw [e1]
        generalize w.length * l.repeatCount.toNat = m at *
        omega
    · have := ho.many
      simp only [List.map_cons, List.sum_cons, List.length_append, List.length_map]
      omega

theorem occurs_le {tracks : List (List PCmd)} {w : List PCmd} {t i : Nat} (h : Occurs tracks w t i) (hw : w ≠ []) :
    t < tracks.length ∧ i + w.length ≤ (tracks.getD t []).length := by
  obtain ⟨tr, ht, hp⟩ := h
  have h1 := (List.getElem?_eq_some_iff.1 ht).1
  have h2 := hp.length_le
  rw [List.length_drop] at h2
  have := List.length_pos_iff.2 hw
  rw [List.getD_eq_getElem?_getD, ht, Option.getD_some]
  exact ⟨h1, by omega⟩

theorem sum_drop_le (l : List (List PCmd)) (n : Nat) : ((l.drop n).map List.length).sum ≤ (l.map List.length).sum := by
  conv_rhs => rw [← List.take_append_drop n l, List.map_append, List.sum_append]
  omega

theorem held_size {tracks : List (List PCmd)} {w : List PCmd} (hw : w ≠ []) (out : List Location) : (∀ l ∈ out, ∃ os, Stands tracks w l os) → Apart w.length out →
    ∀ t i, (∀ l ∈ out, t < l.trackIdx ∨ (t = l.trackIdx ∧ i ≤ l.cmdIdx)) → t < tracks.length → i ≤ (tracks.getD t []).length →
    w.length * (out.map fun l => l.repeatCount.toNat).sum + i ≤
      (tracks.getD t []).length + ((tracks.drop (t + 1)).map List.length).sum + w.length * (tracks.length - t) := by
  induction out with
  | nil => intro _ _ t i _ _ _; simp only [List.map_nil, List.sum_nil]; omega
  | cons l out ih =>
    intro hh ha t i hti hti1 hti2
    unfold Apart at ha
    rw [List.pairwise_cons] at ha
    obtain ⟨os, ho⟩ := hh l (by simp)
    obtain ⟨o, hoo, hnear⟩ := ho.near
    obtain ⟨k1, k2, k3⟩ := ho.occ o hoo
    obtain ⟨o1, o2⟩ := occurs_le k1 hw
    have ih := ih (fun x hx => hh x (by simp [hx])) ha.2
    rw [List.map_cons, List.sum_cons, Nat.mul_add]
    generalize hm : w.length * l.repeatCount.toNat = m at *
    generalize hS : w.length * (out.map fun l => l.repeatCount.toNat).sum = S at *
    -- from the start of the location's track
    have step : m + S + l.cmdIdx ≤ (tracks.getD l.trackIdx []).length + ((tracks.drop (l.trackIdx + 1)).map List.length).sum + w.length * (tracks.length - l.trackIdx) := by
      have hsum : ∀ d, ((tracks.drop (d + 1)).map List.length).sum ≤ ((tracks.drop d).map List.length).sum := by
        intro d
        by_cases hd : d < tracks.length
        · rw [List.drop_eq_getElem_cons hd, List.map_cons, List.sum_cons]; omega
        · rw [List.drop_of_length_le (by omega), List.drop_of_length_le (by omega)]
      by_cases hin : l.cmdIdx + m ≤ (tracks.getD l.trackIdx []).length
      · have := ih l.trackIdx (l.cmdIdx + m) (fun x hx => by have := ha.1 x hx; omega) o1 hin
        omega
      · -- nothing more in this track
        have hnext : ∀ x ∈ out, l.trackIdx + 1 ≤ x.trackIdx := by
          intro x hx
          rcases ha.1 x hx with h | h
          · exact h
          · exfalso
            obtain ⟨os', ho'⟩ := hh x (by simp [hx])
            obtain ⟨o', hoo', -⟩ := ho'.near
            obtain ⟨q1, q2, -⟩ := ho'.occ o' hoo'
            have q3 := (occurs_le q1 hw).2
            rw [← h.1] at q3
            omega
        by_cases hlast : l.trackIdx + 1 < tracks.length
        · have h5 := ih (l.trackIdx + 1) 0 (fun x hx => by have := hnext x hx; omega) hlast (Nat.zero_le _)
          have h6 : ((tracks.drop (l.trackIdx + 1)).map List.length).sum = (tracks.getD (l.trackIdx + 1) []).length + ((tracks.drop (l.trackIdx + 1 + 1)).map List.length).sum := by
            rw [List.drop_eq_getElem_cons hlast, List.map_cons, List.sum_cons, List.getD_eq_getElem?_getD, List.getElem?_eq_getElem hlast]; rfl
          have h7 : w.length * (tracks.length - l.trackIdx) = w.length * (tracks.length - (l.trackIdx + 1)) + w.length := by
            rw [show tracks.length - l.trackIdx = (tracks.length - (l.trackIdx + 1)) + 1 by omega, Nat.mul_add, Nat.mul_one]
          omega
        · have hnil : out = [] := by
            rw [List.eq_nil_iff_forall_not_mem]
            intro x hx
            obtain ⟨os', ho'⟩ := hh x (by simp [hx])
            obtain ⟨o', hoo', -⟩ := ho'.near
            have := (occurs_le (ho'.occ o' hoo').1 hw).1
            have := hnext x hx
            omega
          subst hnil
          simp only [List.map_nil, List.sum_nil, Nat.mul_zero] at hS
          have : w.length ≤ w.length * (tracks.length - l.trackIdx) := Nat.le_mul_of_pos_right _ (by omega)
          omega
    rcases hti l (by simp) with h | ⟨rfl, h⟩
    · have h8 : (tracks.getD l.trackIdx []).length + ((tracks.drop (l.trackIdx + 1)).map List.length).sum ≤ ((tracks.drop (t + 1)).map List.length).sum := by
        have h9 : ((tracks.drop l.trackIdx).map List.length).sum = (tracks.getD l.trackIdx []).length + ((tracks.drop (l.trackIdx + 1)).map List.length).sum := by
          rw [List.drop_eq_getElem_cons o1, List.map_cons, List.sum_cons, List.getD_eq_getElem?_getD, List.getElem?_eq_getElem o1]; rfl
        rw [← h9]
        have : tracks.drop l.trackIdx = (tracks.drop (t + 1)).drop (l.trackIdx - (t + 1)) := by rw [List.drop_drop]; congr 1; omega
        rw [this]
        exact sum_drop_le _ _
      have h9 : w.length * (tracks.length - l.trackIdx) ≤ w.length * (tracks.length - t) := Nat.mul_le_mul_left _ (by omega)
      omega
    · omega

theorem sumRepeats_ok (ls : List Location) : ∀ a : UInt8, a.toNat + (ls.map fun l => l.repeatCount.toNat).sum < 256 →
    ∃ n, ls.foldlM (fun acc l => addU8 acc l.repeatCount) a = .ok n := by
  induction ls with
  | nil => intro a _; exact ⟨a, rfl⟩
  | cons l ls ih =>
    intro a h
    rw [List.map_cons, List.sum_cons] at h
    obtain ⟨c, hc, hc2⟩ := addU8_lt (a := a) (b := l.repeatCount) (by omega)
    rw [List.foldlM_cons, hc]
    exact ih c (by omega)

/-- The best sequence can be found as long as no sum of counts reaches 256. -/
theorem bestOf_ok (seqs : List Sequence) (h : ∀ s ∈ seqs, 3 < s.commands.length → (s.locations.map fun l => l.repeatCount.toNat).sum < 256)
    (h1 : ∀ s ∈ seqs, ∀ l ∈ s.locations, 1 ≤ l.repeatCount.toNat) : ∃ b, bestOf seqs = .ok b := by
  unfold bestOf
  generalize (none : Option (Nat × Sequence)) = acc
  induction seqs generalizing acc with
  | nil => exact ⟨acc, rfl⟩
  | cons s seqs ih =>
    have ih := ih (fun x hx => h x (by simp [hx])) (fun x hx => h1 x (by simp [hx]))
    rw [List.foldlM_cons]
    have hw : ∃ b, s.worthwhile = .ok b := by
      unfold Sequence.worthwhile
      split_ifs with hc
      · obtain ⟨n, hn⟩ := sumRepeats_ok s.locations 0 (by rw [show (0 : UInt8).toNat = 0 from rfl, Nat.zero_add]; exact h s (by simp) hc)
        unfold sumRepeatsU8
        rw [hn]; exact ⟨_, rfl⟩
      · exact ⟨_, rfl⟩
    obtain ⟨b, hb⟩ := hw
    rw [hb]
    cases b with
    | false => exact ih acc
    | true =>
      obtain ⟨w1, w2⟩ := worthwhile_spec s hb
      have hlen : s.locations.length ≤ (s.locations.map fun l => l.repeatCount.toNat).sum := by
        have := h1 s (by simp)
        clear h h1 hb w1 w2 ih
        generalize s.locations = ls at *
        induction ls with
        | nil => simp
        | cons l ls ih =>
          have h0 := this l (by simp)
          have := ih (fun x hx => this x (by simp [hx]))
          simp only [List.length_cons, List.map_cons, List.sum_cons]; omega
      have hsc : ∃ n, s.score = .ok n := by
        unfold Sequence.score subU
        simp only
        generalize (s.locations.map fun l => l.repeatCount.toNat).sum = S at *
        have : s.commands.length + s.locations.length ≤ S * s.commands.length := by
          obtain ⟨S', rfl⟩ : ∃ S', S = S' + 2 := ⟨S - 2, by omega⟩
          have : S' * 1 ≤ S' * s.commands.length := Nat.mul_le_mul_left _ (by omega)
          rw [Nat.add_mul]
          omega
        rw [if_pos this]
        exact ⟨_, rfl⟩
      obtain ⟨n, hn⟩ := hsc
      simp only [bind, Except.bind, if_true, hn]
      cases acc with
      | none => exact ih _
      | some p => exact ih _

/-! ### Rounds -/

/-- A candidate of tracks. -/
def Candidate (tracks : List (List PCmd)) (s : Sequence) : Prop := SeqOk tracks s ∧ ∀ l ∈ s.locations, ∃ os, Stands tracks s.commands l os

/-- The candidates of tracks can always be listed. -/
theorem candidates_ok (tracks : List (List PCmd)) (top : Nat) : ∃ tree seqs, buildTree tracks top = .ok tree ∧ tree.sequences = .ok seqs ∧
    ∀ s ∈ seqs, Candidate (tracks.take top) s := by
  obtain ⟨tree, t, i, h1, h2⟩ := buildTree_grown tracks top
  obtain ⟨seqs, h3, h4⟩ := sequences_held h2
  obtain ⟨t', i', h5⟩ := buildTree_ok tracks top tree h1
  exact ⟨tree, seqs, h1, h3, fun s hs => ⟨sequences_ok _ _ _ _ h5 seqs h3 s hs, h4 s hs⟩⟩

theorem Candidate.sum_sparse {tracks : List (List PCmd)} {s : Sequence} (h : Candidate tracks s) {n : Nat} (hs : Sparse tracks n) (hl : 3 < s.commands.length) :
    2 * (s.locations.map fun l => l.repeatCount.toNat).sum ≤ 3 * n := by
  obtain ⟨ps, h1, h2, h3⟩ := held_places s.locations h.2 h.1.apart
  have := hs s.commands (by omega) h.1.eligible ps (fun p hp => (h1 p hp).1) h2
  omega

theorem Candidate.sum_size {tracks : List (List PCmd)} {s : Sequence} (h : Candidate tracks s) :
    s.commands.length * (s.locations.map fun l => l.repeatCount.toNat).sum ≤ (tracks.map List.length).sum + s.commands.length * tracks.length := by
  cases hl : s.locations with
  | nil => simp
  | cons a ls =>
    obtain ⟨tr, ht, -⟩ := h.1.occurs a (by rw [hl]; simp)
    have h0 : 0 < tracks.length := by have := (List.getElem?_eq_some_iff.1 ht).1; omega
    have := held_size h.1.ne s.locations h.2 h.1.apart 0 0 (fun l _ => by omega) h0 (Nat.zero_le _)
    rw [hl] at this
    obtain ⟨x, xs, rfl⟩ : ∃ x xs, tracks = x :: xs := by
      cases tracks with
      | nil => simp at h0
      | cons x xs => exact ⟨x, xs, rfl⟩
    simp only [List.getD_cons_zero, Nat.zero_add, List.drop_succ_cons, List.drop_zero, Nat.sub_zero, Nat.add_zero, List.map_cons, List.sum_cons] at this ⊢
    omega

/-- One round succeeds if no sum of counts reaches 256. -/
theorem bestSequence_exists (tracks : List (List PCmd)) (top : Nat)
    (h : ∀ s, Candidate (tracks.take top) s → 3 < s.commands.length → (s.locations.map fun l => l.repeatCount.toNat).sum < 256) :
    ∃ tree b, buildTree tracks top = .ok tree ∧ bestSequence tree = .ok b := by
  obtain ⟨tree, seqs, h1, h2, h3⟩ := candidates_ok tracks top
  obtain ⟨b, hb⟩ := bestOf_ok seqs (fun s hs hl => h s (h3 s hs) hl) (fun s hs l hl => (h3 s hs).1.once l hl)
  refine ⟨tree, b.map (·.2), h1, ?_⟩
  unfold bestSequence
  rw [h2]
  simp only [bind, Except.bind, hb]
  rfl

/-- The optimiser succeeds if no round has a sum of counts that reaches 256. -/
theorem optimizeFuel_ok (top : Nat) (P : List (List PCmd) → Prop)
    (hP : ∀ tracks, P tracks → ∀ s, Candidate (tracks.take top) s → 3 < s.commands.length → (s.locations.map fun l => l.repeatCount.toNat).sum < 256)
    (hr : ∀ tracks s out, top ≤ tracks.length → P tracks → Round top tracks s out → P out) (fuel : Nat) :
    ∀ tracks, top ≤ tracks.length → P tracks → topLevelSize tracks top < fuel → ∃ out, optimizeFuel fuel tracks top = .ok out := by
  induction fuel with
  | zero => intro tracks _ _ h; omega
  | succ fuel ih =>
    intro tracks htop hp hf
    obtain ⟨tree, b, h1, h2⟩ := bestSequence_exists tracks top (hP tracks hp)
    rw [optimizeFuel, h1]
    simp only [bind, Except.bind, h2]
    cases b with
    | none => exact ⟨_, rfl⟩
    | some s =>
      simp only
      obtain ⟨g1, g2, g3⟩ := bestSequence_ok tracks top tree s h1 h2
      obtain ⟨out, e1, -, -⟩ := round_shrinks tracks s top htop g1 g2 g3
      rw [e1]
      simp only
      have hround : Round top tracks s out := ⟨tree, h1, h2, e1⟩
      have := hround.facts htop
      exact ih out (by omega) (hr tracks s out htop hp hround) (by omega)

/-- The counts of the sequence that is chosen. -/
theorem Round.counts {top : Nat} {tracks out : List (List PCmd)} {s : Sequence} (h : Round top tracks s out) : ∀ l ∈ s.locations, l.repeatCount.toNat ≤ 4 := by
  obtain ⟨tree, h1, h2, -⟩ := h
  obtain ⟨tree', seqs, h3, h4, h5⟩ := candidates_ok tracks top
  rw [h1] at h3; cases h3
  unfold bestSequence at h2
  rw [h4, res_bind] at h2
  obtain ⟨a, ha, h2⟩ := h2
  cases ha
  rw [res_bind] at h2
  obtain ⟨b, hb, h2⟩ := h2
  rw [res_pure] at h2
  have hm := bestOf_spec seqs b hb
  cases b with
  | none => cases h2
  | some p =>
    simp only [Option.map_some, Option.some.injEq] at h2
    intro l hl
    have hs : s ∈ seqs := by
      rw [← h2]; exact (hm.2 p.1 p.2 rfl).1
    obtain ⟨os, ho⟩ := (h5 s hs).2 l hl
    exact ho.le

/-- No call repeats its subroutine more than four times. -/
def CallsLe (tracks : List (List PCmd)) : Prop := ∀ tr ∈ tracks, ∀ c ∈ tr, ∀ t n, c.command = .callLoop t n → n.toNat ≤ 4

theorem Round.callsLe {top : Nat} {tracks out : List (List PCmd)} {s : Sequence} (htop : top ≤ tracks.length) (h : Round top tracks s out)
    (hl : CallsLe tracks) : CallsLe out := by
  have hc4 := h.counts
  obtain ⟨g1, -⟩ := h.facts htop
  obtain ⟨tree, -, -, he⟩ := h
  obtain ⟨newTop, rfl, hn, hg⟩ := extractSequence_inv tracks s top out he
  intro tr htr c hc t n hcmd
  rw [List.mem_append, List.mem_append] at htr
  rcases htr with (htr | htr) | htr
  · obtain ⟨i, hi⟩ := List.mem_iff_getElem?.1 htr
    have hilt := (List.getElem?_eq_some_iff.1 hi).1
    have hilt' : i < (tracks.take top).length := by omega
    obtain ⟨o, ho, hx⟩ := hg i _ (List.getElem?_eq_getElem hilt')
    rw [hi] at ho; cases ho
    rcases extractTrack_mem _ _ _ _ _ _ hx c hc with hm | ⟨l, hlm, rfl⟩
    · exact hl _ (List.mem_of_mem_take (List.getElem_mem hilt')) c hm t n hcmd
    · simp only [loopCmd, Command.callLoop.injEq] at hcmd
      obtain ⟨rfl, rfl⟩ := hcmd
      exact hc4 l (List.mem_filter.1 hlm).1
  · exact hl _ (List.mem_of_mem_drop htr) c hc t n hcmd
  · rw [List.mem_singleton] at htr
    subst htr
    exact absurd hcmd (eligible_no_call (g1.eligible c hc) t n)

theorem optimizeFuel_callsLe (top fuel : Nat) : ∀ (tracks out : List (List PCmd)), top ≤ tracks.length → CallsLe tracks →
    optimizeFuel fuel tracks top = .ok out → CallsLe out := by
  induction fuel with
  | zero => intro tracks out _ _ h; cases h
  | succ fuel ih =>
    intro tracks out htop hl h
    rcases optimizeFuel_succ fuel tracks out top h with ⟨rfl, -⟩ | ⟨s, tracks1, hr, h⟩
    · exact hl
    · have hlen := (hr.facts htop).2.2.2.1
      exact ih tracks1 out (by omega) (hr.callsLe htop hl) h

/-! ### A sequence does not occur more often after a round -/

/-- Where the commands of the new track stood in the old one. -/
theorem extractTrack_places (tr : List PCmd) (L k : Nat) (hL : 1 ≤ L) (ls : List Location) : ∀ last out, (∀ l ∈ ls, 1 ≤ l.repeatCount.toNat) →
    extractTrack tr L k ls last = .ok out → ∃ f : Nat → Nat, (∀ i, last + i ≤ f i) ∧ (∀ i j, i ≤ j → f i + (j - i) ≤ f j) ∧
      ∀ (w : List PCmd) i, w ≠ [] → (∀ c ∈ w, c.callLoopEligible = true) → w <+: out.drop i → w <+: tr.drop (f i) := by
  induction ls with
  | nil =>
    intro last out _ h
    simp only [extractTrack, res_ok] at h
    subst h
    refine ⟨fun i => last + i, fun i => le_rfl, fun i j h => by simp only; omega, ?_⟩
    intro w i hw _ hp
    split_ifs at hp
    · rw [List.drop_drop] at hp; exact hp
    · simp only [List.drop_nil, List.prefix_nil] at hp; exact absurd hp hw
  | cons l ls ih =>
    intro last out h1 h
    simp only [extractTrack, res_bind, res_pure] at h
    obtain ⟨before, hb, rest, h2, rfl⟩ := h
    obtain ⟨f, f1, f2, f3⟩ := ih _ rest (fun x hx => h1 x (by simp [hx])) h2
    have hn := h1 l (by simp)
    have hbef : last ≤ l.cmdIdx ∧ l.cmdIdx ≤ tr.length ∧ before = (tr.take l.cmdIdx).drop last := by
      unfold slice at hb
      split_ifs at hb with hc
      · rw [res_ok] at hb; exact ⟨hc.1, hc.2, hb.symm⟩
      · cases hb
    obtain ⟨b1, b2, b3⟩ := hbef
    have hblen : before.length = l.cmdIdx - last := by rw [b3, List.length_drop, List.length_take]; omega
    have hm : 1 ≤ L * l.repeatCount.toNat := Nat.mul_pos hL hn
    generalize hmm : L * l.repeatCount.toNat = m at *
    refine ⟨fun i => if i ≤ before.length then last + i else f (i - before.length - 1), ?_, ?_, ?_⟩
    · intro i
      simp only
      split_ifs with hi
      · exact le_rfl
      · have := f1 (i - before.length - 1); omega
    · intro i j hij
      simp only
      split_ifs with hi hj hj
      · omega
      · have := f1 (j - before.length - 1); omega
      · omega
      · have := f2 (i - before.length - 1) (j - before.length - 1) (by omega); omega
    · intro w i hw he hp
      simp only
      split_ifs with hi
      · -- the sequence ends before the call
        rw [List.drop_append_of_le_length hi] at hp
        have hlen : w <+: before.drop i := by
          by_cases hlt : w.length ≤ (before.drop i).length
          · exact List.prefix_of_prefix_length_le hp (List.prefix_append _ _) hlt
          · exfalso
            have hget : w[(before.drop i).length]? = some (loopCmd k l.repeatCount) := by
              obtain ⟨z, hz⟩ := hp
              have := congrArg (fun q => q[(before.drop i).length]?) hz
              simp only [List.getElem?_append_right (le_refl (before.drop i).length), Nat.sub_self, List.getElem?_cons_zero] at this
              rw [List.getElem?_append_left (by omega)] at this
              exact this
            have := he _ (List.mem_of_getElem? hget)
            exact absurd rfl (eligible_no_call this k l.repeatCount)
        refine hlen.trans ?_
        rw [b3, List.drop_drop, List.drop_take]
        exact List.take_prefix _ _
      · apply f3 w _ hw he
        rw [List.drop_append, List.drop_of_length_le (by omega), List.nil_append, show i - before.length = (i - before.length - 1) + 1 by omega, List.drop_succ_cons] at hp
        exact hp

theorem Round.sparse {top : Nat} {tracks out : List (List PCmd)} {s : Sequence} {n : Nat} (htop : top ≤ tracks.length) (h : Round top tracks s out)
    (hs : Sparse (tracks.take top) n) : Sparse (out.take top) n := by
  obtain ⟨g1, -⟩ := h.facts htop
  obtain ⟨tree, -, -, he⟩ := h
  obtain ⟨newTop, rfl, hn, hg⟩ := extractSequence_inv tracks s top out he
  have hnl : newTop.length = top := by rw [hn, List.length_take]; omega
  have htake : (newTop ++ tracks.drop top ++ [s.commands]).take top = newTop := by
    rw [List.append_assoc, ← hnl, List.take_left']; rfl
  rw [htake]
  have hf : ∀ t, ∃ f : Nat → Nat, (∀ i j, i ≤ j → f i + (j - i) ≤ f j) ∧
      ∀ (w : List PCmd) i, w ≠ [] → (∀ c ∈ w, c.callLoopEligible = true) → Occurs newTop w t i → Occurs (tracks.take top) w t (f i) := by
    intro t
    by_cases ht : t < (tracks.take top).length
    · obtain ⟨o, ho, hx⟩ := hg t _ (List.getElem?_eq_getElem ht)
      obtain ⟨f, -, f2, f3⟩ := extractTrack_places _ _ _ (List.length_pos_iff.2 g1.ne) _ _ _ (fun l hl => g1.once l (List.mem_filter.1 hl).1) hx
      refine ⟨f, f2, ?_⟩
      intro w i hw hew ⟨tr', ht', hp⟩
      rw [ho] at ht'; cases ht'
      exact ⟨_, List.getElem?_eq_getElem ht, f3 w i hw hew hp⟩
    · refine ⟨id, fun i j h => by simp only [id]; omega, ?_⟩
      intro w i _ _ ⟨tr', ht', _⟩
      have := (List.getElem?_eq_some_iff.1 ht').1
      omega
  choose f f1 f2 using hf
  intro w hw hew ps hps hd
  have hne : w ≠ [] := by rintro rfl; simp at hw
  have := hs w hw hew (ps.map fun p => (p.1, f p.1 p.2)) (by
    intro p hp
    obtain ⟨q, hq, rfl⟩ := List.mem_map.1 hp
    exact f2 q.1 w q.2 hne hew (hps q hq)) (by
    unfold Disjoint at hd ⊢
    rw [List.pairwise_map]
    refine hd.imp ?_
    intro a b hab
    rcases hab with h | ⟨h1, h2⟩
    · exact .inl h
    · refine .inr ⟨h1, ?_⟩
      simp only
      rw [h1]
      have := f1 b.1 a.2 b.2 (by omega)
      omega)
  rwa [List.length_map] at this

end M2S
