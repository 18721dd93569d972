import Verif.Song
import Verif.Spec.Loops
import Verif.Proofs.Res
/-
The sequence tree: what the nodes and their locations mean.
-/
namespace M2S

/-- Not after position `(t, i)`. -/
def Location.le (l : Location) (t i : Nat) : Prop := l.trackIdx < t ∨ (l.trackIdx = t ∧ l.cmdIdx ≤ i)

theorem mem_paths (pre : List PCmd) (ls : List Location) (es : List (List PCmd × SeqTree)) (p : List PCmd × List Location) :
    p ∈ (SeqTree.node ls es).paths pre ↔ ∃ e ∈ es, p = (pre ++ e.1, e.2.locations) ∨ p ∈ e.2.paths (pre ++ e.1) := by
  have key : ∀ es : List (List PCmd × SeqTree), p ∈ SeqTree.paths.go pre es ↔
      ∃ e ∈ es, p = (pre ++ e.1, e.2.locations) ∨ p ∈ e.2.paths (pre ++ e.1) := by
    intro es
    induction es with
    | nil => simp [SeqTree.paths.go]
    | cons e es ih =>
      obtain ⟨c, t⟩ := e
      rw [SeqTree.paths.go]
      simp only [List.mem_cons, List.mem_append, ih, exists_eq_or_imp, or_assoc]
  rw [SeqTree.paths]
  exact key es

/-- What the locations of a node say. -/
structure LocsOk (tracks : List (List PCmd)) (path : List PCmd) (locs : List Location) (t i : Nat) : Prop where
  occurs : ∀ l ∈ locs, Occurs tracks path l.trackIdx l.cmdIdx
  once : ∀ l ∈ locs, 1 ≤ l.repeatCount.toNat
  twice : ∀ l ∈ locs, 2 ≤ l.repeatCount.toNat → Occurs tracks path l.trackIdx (l.cmdIdx + path.length)
  sorted : locs.Pairwise fun a b => a.le b.trackIdx b.cmdIdx
  upto : ∀ l ∈ locs, l.le t i

theorem LocsOk.nil (tracks : List (List PCmd)) (path : List PCmd) (t i : Nat) : LocsOk tracks path [] t i :=
  ⟨by simp, by simp, by simp, .nil, by simp⟩

theorem Location.le_trans {l : Location} {t i t' i' : Nat} (h : l.le t i) (h' : t < t' ∨ (t = t' ∧ i ≤ i')) : l.le t' i' := by
  unfold Location.le at *; omega

theorem LocsOk.mono {tracks : List (List PCmd)} {path : List PCmd} {locs : List Location} {t i t' i' : Nat} (h : LocsOk tracks path locs t i)
    (h' : t < t' ∨ (t = t' ∧ i ≤ i')) : LocsOk tracks path locs t' i' :=
  ⟨h.occurs, h.once, h.twice, h.sorted, fun l hl => Location.le_trans (h.upto l hl) h'⟩

theorem addU8_toNat {a b c : UInt8} (h : addU8 a b = .ok c) : c.toNat = a.toNat + b.toNat := by
  unfold addU8 at h
  split_ifs at h with hc
  · simp only [Except.ok.injEq] at h
    rw [← h, UInt8.toNat_add]
    apply Nat.mod_eq_of_lt; omega
  · cases h

/-- The positions of locations. -/
def Location.pos (l : Location) : Nat × Nat := (l.trackIdx, l.cmdIdx)

theorem addLocation_pos (locs : List Location) (t i L : Nat) : ∀ locs', addLocation locs t i L = .ok locs' →
    locs'.map Location.pos = locs.map Location.pos ∨ locs'.map Location.pos = locs.map Location.pos ++ [(t, i)] := by
  induction locs with
  | nil =>
    intro locs' h
    simp only [addLocation, Except.ok.injEq] at h
    rw [← h]; right; rfl
  | cons l ls ih =>
    intro locs' h
    rw [addLocation] at h
    split_ifs at h with hc
    · simp only [res_bind, res_pure] at h
      obtain ⟨k, -, rfl⟩ := h
      left; rfl
    · simp only [res_bind, res_pure] at h
      obtain ⟨ls', h1, rfl⟩ := h
      rcases ih ls' h1 with h2 | h2
      · left; simp [h2]
      · right; simp [h2]

theorem addLocation_ok (tracks : List (List PCmd)) (path : List PCmd) (t i : Nat) (ho : Occurs tracks path t i) (locs : List Location) :
    ∀ locs', LocsOk tracks path locs t i → addLocation locs t i path.length = .ok locs' → LocsOk tracks path locs' t i ∧ locs' ≠ [] := by
  have key : ∀ locs locs', addLocation locs t i path.length = .ok locs' → (∀ l ∈ locs, Occurs tracks path l.trackIdx l.cmdIdx ∧ 1 ≤ l.repeatCount.toNat ∧
      (2 ≤ l.repeatCount.toNat → Occurs tracks path l.trackIdx (l.cmdIdx + path.length))) → (∀ l ∈ locs', Occurs tracks path l.trackIdx l.cmdIdx ∧
      1 ≤ l.repeatCount.toNat ∧ (2 ≤ l.repeatCount.toNat → Occurs tracks path l.trackIdx (l.cmdIdx + path.length))) ∧ locs' ≠ [] := by
    intro locs
    induction locs with
    | nil =>
      intro locs' h _
      simp only [addLocation, Except.ok.injEq] at h
      rw [← h]
      simp only [List.mem_singleton, forall_eq]
      exact ⟨⟨ho, by decide, by intro h; exact absurd h (by decide)⟩, by simp⟩
    | cons l ls ih =>
      intro locs' h hl
      rw [addLocation] at h
      split_ifs at h with hc
      · simp only [res_bind, res_pure] at h
        obtain ⟨k, hk, rfl⟩ := h
        refine ⟨?_, by simp⟩
        intro l' hl'
        rcases List.mem_cons.1 hl' with rfl | hl'
        · simp only
          obtain ⟨h1, h2, h3⟩ := hl l (by simp)
          have := addU8_toNat hk
          refine ⟨h1, by rw [this]; omega, fun _ => ?_⟩
          rw [hc.1, hc.2]; exact ho
        · exact hl l' (by simp [hl'])
      · simp only [res_bind, res_pure] at h
        obtain ⟨ls', h1, rfl⟩ := h
        refine ⟨?_, by simp⟩
        intro l' hl'
        rcases List.mem_cons.1 hl' with rfl | hl'
        · exact hl _ (by simp)
        · exact (ih ls' h1 (fun x hx => hl x (by simp [hx]))).1 l' hl'
  intro locs' h he
  obtain ⟨k1, k2⟩ := key locs locs' he (fun l hl => ⟨h.occurs l hl, h.once l hl, h.twice l hl⟩)
  refine ⟨⟨fun l hl => (k1 l hl).1, fun l hl => (k1 l hl).2.1, fun l hl => (k1 l hl).2.2, ?_, ?_⟩, k2⟩
  · have hs : (locs.map Location.pos).Pairwise fun a b => a.1 < b.1 ∨ (a.1 = b.1 ∧ a.2 ≤ b.2) := by
      rw [List.pairwise_map]; exact h.sorted
    have hs' : (locs'.map Location.pos).Pairwise fun a b => a.1 < b.1 ∨ (a.1 = b.1 ∧ a.2 ≤ b.2) := by
      rcases addLocation_pos locs t i _ locs' he with e | e <;> rw [e]
      · exact hs
      · rw [List.pairwise_append]
        refine ⟨hs, by simp, ?_⟩
        intro a ha b hb
        simp only [List.mem_singleton] at hb
        subst hb
        obtain ⟨l, hl, rfl⟩ := List.mem_map.1 ha
        exact h.upto l hl
    rw [List.pairwise_map] at hs'
    exact hs'
  · intro l hl
    have hm : l.pos ∈ locs'.map Location.pos := List.mem_map.2 ⟨l, hl, rfl⟩
    rcases addLocation_pos locs t i _ locs' he with e | e <;> rw [e] at hm
    · obtain ⟨l', hl', hp⟩ := List.mem_map.1 hm
      have := h.upto l' hl'
      unfold Location.pos at hp
      simp only [Prod.mk.injEq] at hp
      unfold Location.le at *; omega
    · rcases List.mem_append.1 hm with hm | hm
      · obtain ⟨l', hl', hp⟩ := List.mem_map.1 hm
        have := h.upto l' hl'
        unfold Location.pos at hp
        simp only [Prod.mk.injEq] at hp
        unfold Location.le at *; omega
      · simp only [List.mem_singleton, Location.pos, Prod.mk.injEq] at hm
        unfold Location.le; omega

theorem readd_ok (tracks : List (List PCmd)) (path : List PCmd) (t i : Nat) (old : List Location) : ∀ acc acc',
    (∀ l ∈ old, Occurs tracks path l.trackIdx l.cmdIdx ∧ l.le t i) → old.Pairwise (fun a b => a.le b.trackIdx b.cmdIdx) →
    LocsOk tracks path acc t i → (∀ a ∈ acc, ∀ l ∈ old, a.le l.trackIdx l.cmdIdx) →
    readdLocations old path.length acc = .ok acc' → LocsOk tracks path acc' t i := by
  induction old with
  | nil =>
    intro acc acc' _ _ h _ he
    simp only [readdLocations, List.foldlM_nil, res_pure] at he
    subst he; exact h
  | cons l ls ih =>
    intro acc acc' hold hs h hal he
    unfold readdLocations at he
    rw [List.foldlM_cons, res_bind] at he
    obtain ⟨acc1, h1, h2⟩ := he
    rw [List.pairwise_cons] at hs
    obtain ⟨ho, hle⟩ := hold l (by simp)
    have hb : LocsOk tracks path acc l.trackIdx l.cmdIdx := ⟨h.occurs, h.once, h.twice, h.sorted, fun a ha => hal a ha l (by simp)⟩
    obtain ⟨hn, -⟩ := addLocation_ok tracks path _ _ ho acc acc1 hb h1
    refine ih acc1 acc' (fun x hx => hold x (by simp [hx])) hs.2 (hn.mono ?_) ?_ h2
    · exact hle
    · intro a ha x hx
      exact Location.le_trans (hn.upto a ha) (hs.1 x hx)

theorem sharedLen_spec (a : List PCmd) : ∀ b, sharedLen a b ≤ a.length ∧ sharedLen a b ≤ b.length ∧ a.take (sharedLen a b) = b.take (sharedLen a b) := by
  induction a with
  | nil => intro b; simp [sharedLen]
  | cons x xs ih =>
    intro b
    cases b with
    | nil => simp [sharedLen]
    | cons y ys =>
      unfold sharedLen
      split_ifs with h
      · obtain ⟨h1, h2, h3⟩ := ih ys
        subst h
        simp [h1, h2, h3]
      · simp

theorem prefixLen_spec (a b : List PCmd) : prefixLen a b ≤ a.length ∧ prefixLen a b ≤ b.length ∧ a.take (prefixLen a b) = b.take (prefixLen a b) := by
  obtain ⟨h1, h2, h3⟩ := sharedLen_spec a b
  have h4 := trimShared_le a b (sharedLen a b)
  unfold prefixLen
  refine ⟨by omega, by omega, ?_⟩
  have := congrArg (List.take (trimShared a b (sharedLen a b))) h3
  rw [List.take_take, List.take_take] at this
  rwa [Nat.min_eq_left h4] at this

/-- What a path and the locations of its node say. -/
structure PathOk (tracks : List (List PCmd)) (t i : Nat) (path : List PCmd) (ls : List Location) : Prop where
  ne : path ≠ []
  eligible : ∀ c ∈ path, c.callLoopEligible = true
  locs : LocsOk tracks path ls t i
  tie : ∀ c, path.head? = some c → c.canBeFirst = false → ∃ l, ls = [l] ∧ l.repeatCount = 1

/-- All nodes below a node are right. -/
def TreeOk (tracks : List (List PCmd)) (t i : Nat) (pre : List PCmd) (tree : SeqTree) : Prop := ∀ p ∈ tree.paths pre, PathOk tracks t i p.1 p.2

theorem findEdge_spec (c : PCmd) (es : List (List PCmd × SeqTree)) (i : Nat) (e : List PCmd × SeqTree) (h : findEdge c es = some i) (he : es[i]? = some e) :
    e.1.head? = some c := by
  unfold findEdge at h
  rw [List.findIdx?_eq_some_iff_getElem] at h
  obtain ⟨hi, hp, -⟩ := h
  rw [List.getElem?_eq_getElem hi] at he
  simp only [Option.some.injEq] at he
  rw [he] at hp
  simpa using hp

theorem Occurs.prefix {tracks : List (List PCmd)} {a b : List PCmd} {t i : Nat} (h : Occurs tracks (a ++ b) t i) : Occurs tracks a t i := by
  obtain ⟨tr, h1, h2⟩ := h
  exact ⟨tr, h1, (List.prefix_append a b).trans h2⟩

theorem takeWhile_all {α : Type} (p : α → Bool) (l : List α) : ∀ x ∈ l.takeWhile p, p x = true := by
  induction l with
  | nil => simp
  | cons a l ih =>
    intro x hx
    rw [List.takeWhile_cons] at hx
    split at hx
    · rcases List.mem_cons.1 hx with rfl | hx
      · assumption
      · exact ih x hx
    · simp at hx

theorem addCommands_unfold (tree : SeqTree) (commands : List PCmd) (t i L : Nat) : addCommands tree commands t i L =
    (if L > 0 then addLocation tree.locations t i L else pure tree.locations) >>= fun locations =>
      match commands with
      | [] => pure (.node locations tree.edges)
      | c :: cs =>
        match findEdge c tree.edges with
        | none => pure (.node locations (tree.edges ++ freshEdge (c :: cs) t i))
        | some k =>
          match tree.edges[k]? with
          | none => pure (.node locations (tree.edges ++ freshEdge (c :: cs) t i))
          | some (ecmds, target) =>
            if prefixLen (c :: cs) ecmds ≠ 0 ∧ c.canBeFirst = true then
              if prefixLen (c :: cs) ecmds = ecmds.length then
                addLocation target.locations t i (L + prefixLen (c :: cs) ecmds) >>= fun tl =>
                (if prefixLen (c :: cs) ecmds < (c :: cs).length then
                  addCommands (.node tl target.edges) ((c :: cs).drop (prefixLen (c :: cs) ecmds)) t i (L + prefixLen (c :: cs) ecmds)
                else pure (.node tl target.edges)) >>= fun target => pure (.node locations (tree.edges.set k (ecmds, target)))
              else
                readdLocations target.locations (L + prefixLen (c :: cs) ecmds) [] >>= fun nl =>
                addCommands (.node nl [(ecmds.drop (prefixLen (c :: cs) ecmds), target)]) ((c :: cs).drop (prefixLen (c :: cs) ecmds)) t i
                  (L + prefixLen (c :: cs) ecmds) >>= fun newTarget =>
                pure (.node locations (tree.edges.set k ((c :: cs).take (prefixLen (c :: cs) ecmds), newTarget)))
            else pure (.node locations (tree.edges ++ freshEdge (c :: cs) t i)) := by
  rw [addCommands]
  have aux : ∀ (f : List Location → Res SeqTree) , (if L > 0 then addLocation tree.locations t i L >>= f else pure tree.locations >>= f) =
    (if L > 0 then addLocation tree.locations t i L else pure tree.locations) >>= f := by
    intro f; split_ifs <;> rfl
  rw [← aux]
  cases commands with
  | nil => rfl
  | cons c cs =>
    cases hf : findEdge c tree.edges with
    | none => simp only [hf]
    | some k =>
      simp only [hf]
      cases hk : tree.edges[k]? with
      | none => rfl
      | some e =>
        obtain ⟨ecmds, target⟩ := e
        simp only
        split_ifs <;> rfl

theorem addCommands_ok (tracks : List (List PCmd)) (t i : Nat) (tr : List PCmd) (ht : tracks[t]? = some tr) (n : Nat) : ∀ (commands pre : List PCmd) (tree tree' : SeqTree),
    commands.length ≤ n → tr.drop i = pre ++ commands → TreeOk tracks t i pre tree →
    (pre ≠ [] → (∀ c ∈ pre, c.callLoopEligible = true) ∧ (∀ c, pre.head? = some c → c.canBeFirst = true) ∧ LocsOk tracks pre tree.locations t i) →
    addCommands tree commands t i pre.length = .ok tree' →
    TreeOk tracks t i pre tree' ∧ (pre ≠ [] → LocsOk tracks pre tree'.locations t i) := by
  induction n with
  | zero =>
    intro commands pre tree tree' hlen hdrop hT hpre he
    have : commands = [] := List.length_eq_zero_iff.1 (by omega)
    subst this
    rw [addCommands_unfold, res_bind] at he
    obtain ⟨locs, h1, h2⟩ := he
    simp only [res_pure] at h2
    subst h2
    obtain ⟨ls, es⟩ := tree
    refine ⟨?_, ?_⟩
    · intro p hp; rw [mem_paths] at hp; exact hT p ((mem_paths _ _ _ _).2 hp)
    · intro hne
      have hlen : pre.length > 0 := List.length_pos_iff.2 hne
      rw [if_pos hlen] at h1
      have ho : Occurs tracks pre t i := ⟨tr, ht, by rw [hdrop]; exact List.prefix_append _ _⟩
      exact (addLocation_ok tracks pre t i ho _ _ (hpre hne).2.2 h1).1
  | succ n ih =>
    intro commands pre tree tree' hlen hdrop hT hpre he
    obtain ⟨ls, es⟩ := tree
    rw [addCommands_unfold, res_bind] at he
    obtain ⟨locs, h1, h2⟩ := he
    have hocc : ∀ q, q <+: pre ++ commands → Occurs tracks q t i := fun q hq => ⟨tr, ht, by rw [hdrop]; exact hq⟩
    have hlocs : pre ≠ [] → LocsOk tracks pre locs t i := by
      intro hne
      have hlen : pre.length > 0 := List.length_pos_iff.2 hne
      rw [if_pos hlen] at h1
      exact (addLocation_ok tracks pre t i (hocc pre (List.prefix_append _ _)) _ _ (hpre hne).2.2 h1).1
    have hes : ∀ e ∈ es, PathOk tracks t i (pre ++ e.1) e.2.locations ∧ TreeOk tracks t i (pre ++ e.1) e.2 := by
      intro e hee
      exact ⟨hT _ ((mem_paths _ _ _ _).2 ⟨e, hee, .inl rfl⟩), fun p hp => hT p ((mem_paths _ _ _ _).2 ⟨e, hee, .inr hp⟩)⟩
    cases commands with
    | nil =>
      simp only [res_pure] at h2
      subst h2
      refine ⟨?_, hlocs⟩
      intro p hp; rw [mem_paths] at hp; exact hT p ((mem_paths _ _ _ _).2 hp)
    | cons c cs =>
      simp only [SeqTree.edges] at h2
      have fresh_ok : TreeOk tracks t i pre (.node locs (es ++ freshEdge (c :: cs) t i)) := by
        intro p hp
        rw [mem_paths] at hp
        obtain ⟨e, hee, hp⟩ := hp
        rcases List.mem_append.1 hee with hee | hee
        · exact hT p ((mem_paths _ _ _ _).2 ⟨e, hee, hp⟩)
        · unfold freshEdge at hee
          simp only at hee
          split_ifs at hee with hc
          · simp at hee
          · simp only [List.mem_singleton] at hee
            subst hee
            have hpre' : pre ++ (c :: cs).takeWhile PCmd.callLoopEligible <+: pre ++ c :: cs := (List.prefix_append_right_inj _).2 (List.takeWhile_prefix _)
            rcases hp with rfl | hp
            · refine ⟨?_, ?_, ⟨?_, ?_, ?_, ?_, ?_⟩, ?_⟩
              · intro h0
                rw [List.append_eq_nil_iff] at h0
                exact hc (by rw [show List.takeWhile PCmd.callLoopEligible (c :: cs) = [] from h0.2]; rfl)
              · intro x hx
                rcases List.mem_append.1 hx with hx | hx
                · exact (hpre (List.ne_nil_of_mem hx)).1 x hx
                · exact takeWhile_all _ _ x hx
              · simp only [SeqTree.locations, List.mem_singleton, forall_eq]
                exact hocc _ hpre'
              · simp only [SeqTree.locations, List.mem_singleton, forall_eq]; decide
              · simp only [SeqTree.locations, List.mem_singleton, forall_eq]; intro h; exact absurd h (by decide)
              · simp [SeqTree.locations]
              · simp [SeqTree.locations, Location.le]
              · intro x _ _; exact ⟨_, rfl, rfl⟩
            · rw [mem_paths] at hp
              obtain ⟨e, hee, -⟩ := hp
              simp at hee
      cases hf : findEdge c es with
      | none =>
        simp only [hf, res_pure] at h2
        subst h2
        exact ⟨fresh_ok, hlocs⟩
      | some k =>
        simp only [hf] at h2
        cases hk : es[k]? with
        | none =>
          simp only [hk, res_pure] at h2
          subst h2
          exact ⟨fresh_ok, hlocs⟩
        | some e =>
          obtain ⟨ecmds, target⟩ := e
          simp only [hk] at h2
          have hmem : (ecmds, target) ∈ es := List.mem_of_getElem? hk
          obtain ⟨he1, he2⟩ := hes _ hmem
          simp only at he1 he2
          have hhead := findEdge_spec c es k _ hf hk
          simp only at hhead
          obtain ⟨p1, p2, p3⟩ := prefixLen_spec (c :: cs) ecmds
          generalize hm : prefixLen (c :: cs) ecmds = m at *
          by_cases hcond : m ≠ 0 ∧ c.canBeFirst = true
          · rw [if_pos hcond] at h2
            have hpath : ∀ x, (pre ++ ecmds).head? = some x → x.canBeFirst = true := by
              intro x hx
              cases pre with
              | nil => rw [List.nil_append, hhead] at hx; cases hx; exact hcond.2
              | cons y ys => exact (hpre (by simp)).2.1 x hx
            by_cases hfull : m = ecmds.length
            · -- the edge is followed to its end
              rw [if_pos hfull] at h2
              simp only [res_bind, res_pure] at h2
              obtain ⟨tl, g1, target', g2, rfl⟩ := h2
              have hsplit : ecmds ++ (c :: cs).drop m = c :: cs := by
                have : ecmds = (c :: cs).take m := by rw [p3, hfull, List.take_length]
                rw [this]; 
                exact List.take_append_drop _ _
              have hpre1 : pre ++ ecmds <+: pre ++ c :: cs := by
                rw [← hsplit, ← List.append_assoc]; exact List.prefix_append _ _
              have hl : pre.length + m = (pre ++ ecmds).length := by rw [List.length_append, hfull]
              rw [hl] at g1 g2
              have hloc1 := (addLocation_ok tracks (pre ++ ecmds) t i (hocc _ hpre1) _ _ he1.locs g1)
              have hpne : pre ++ ecmds ≠ [] := he1.ne
              obtain ⟨r1, r2⟩ : TreeOk tracks t i (pre ++ ecmds) target' ∧ LocsOk tracks (pre ++ ecmds) target'.locations t i := by
                obtain ⟨tls, tes⟩ := target
                have hT2 : TreeOk tracks t i (pre ++ ecmds) (.node tl tes) := by
                  intro p hp; rw [mem_paths] at hp; exact he2 p ((mem_paths _ _ _ _).2 hp)
                by_cases hmore : m < (c :: cs).length
                · rw [if_pos hmore] at g2
                  have := ih ((c :: cs).drop m) (pre ++ ecmds) (.node tl tes) target'
                    (by rw [List.length_drop]; omega) (by rw [hdrop, List.append_assoc, hsplit]) hT2
                    (fun _ => ⟨he1.eligible, hpath, hloc1.1⟩) g2
                  exact ⟨this.1, this.2 hpne⟩
                · rw [if_neg hmore] at g2
                  simp only [res_pure] at g2
                  subst g2
                  exact ⟨hT2, hloc1.1⟩
              refine ⟨?_, hlocs⟩
              intro p hp
              rw [mem_paths] at hp
              obtain ⟨e, hee, hp⟩ := hp
              rcases List.mem_or_eq_of_mem_set hee with hee | rfl
              · exact hT p ((mem_paths _ _ _ _).2 ⟨e, hee, hp⟩)
              · rcases hp with rfl | hp
                · refine ⟨hpne, he1.eligible, r2, ?_⟩
                  intro x hx hx2
                  rw [hpath x hx] at hx2; cases hx2
                · exact r1 p hp
            · -- the edge is split
              rw [if_neg hfull] at h2
              simp only [res_bind, res_pure] at h2
              obtain ⟨nl, g1, newT, g2, rfl⟩ := h2
              have hsplit : (c :: cs).take m ++ ecmds.drop m = ecmds := by rw [p3]; exact List.take_append_drop _ _
              have hl : pre.length + m = (pre ++ (c :: cs).take m).length := by
                rw [List.length_append, List.length_take, Nat.min_eq_left p1]
              rw [hl] at g1 g2
              have htne : (c :: cs).take m ≠ [] := by
                intro h0
                have := congrArg List.length h0
                rw [List.length_take, Nat.min_eq_left p1] at this
                exact hcond.1 this
              have hpath' : ∀ x, (pre ++ (c :: cs).take m).head? = some x → x.canBeFirst = true := by
                intro x hx
                apply hpath
                rw [← hsplit, ← List.append_assoc, List.head?_append, hx]; rfl
              have helig : ∀ x ∈ pre ++ (c :: cs).take m, x.callLoopEligible = true := by
                intro x hx
                apply he1.eligible
                rw [← hsplit, ← List.append_assoc]; exact List.mem_append_left _ hx
              have hnl := readd_ok tracks (pre ++ (c :: cs).take m) t i target.locations [] nl
                (fun l hl => ⟨Occurs.prefix (b := ecmds.drop m) (by rw [List.append_assoc, hsplit]; exact he1.locs.occurs l hl), he1.locs.upto l hl⟩)
                he1.locs.sorted (LocsOk.nil _ _ _ _) (by simp) g1
              have hT2 : TreeOk tracks t i (pre ++ (c :: cs).take m) (.node nl [(ecmds.drop m, target)]) := by
                intro p hp
                rw [mem_paths] at hp
                obtain ⟨e, hee, hp⟩ := hp
                simp only [List.mem_singleton] at hee
                subst hee
                simp only [List.append_assoc, hsplit] at hp
                rcases hp with rfl | hp
                · exact he1
                · exact he2 p hp
              obtain ⟨r1, r2⟩ := ih ((c :: cs).drop m) (pre ++ (c :: cs).take m) _ newT (by rw [List.length_drop]; omega)
                (by rw [hdrop, List.append_assoc, List.take_append_drop]) hT2 (fun _ => ⟨helig, hpath', hnl⟩) g2
              have hne : pre ++ (c :: cs).take m ≠ [] := by
                intro h0; rw [List.append_eq_nil_iff] at h0; exact htne h0.2
              refine ⟨?_, hlocs⟩
              intro p hp
              rw [mem_paths] at hp
              obtain ⟨e, hee, hp⟩ := hp
              rcases List.mem_or_eq_of_mem_set hee with hee | rfl
              · exact hT p ((mem_paths _ _ _ _).2 ⟨e, hee, hp⟩)
              · rcases hp with rfl | hp
                · refine ⟨hne, helig, r2 hne, ?_⟩
                  intro x hx hx2
                  rw [hpath' x hx] at hx2; cases hx2
                · exact r1 p hp
          · rw [if_neg hcond] at h2
            simp only [res_pure] at h2
            subst h2
            exact ⟨fresh_ok, hlocs⟩

end M2S
