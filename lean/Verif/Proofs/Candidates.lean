import Verif.Proofs.SeqTree
/-
From the tree to the candidate sequences.
-/
namespace M2S

theorem PathOk.mono {tracks : List (List PCmd)} {t i t' i' : Nat} {path : List PCmd} {ls : List Location} (h : PathOk tracks t i path ls)
    (h' : t < t' ∨ (t = t' ∧ i ≤ i')) : PathOk tracks t' i' path ls :=
  ⟨h.ne, h.eligible, h.locs.mono h', h.tie⟩

theorem TreeOk.mono {tracks : List (List PCmd)} {t i t' i' : Nat} {pre : List PCmd} {tree : SeqTree} (h : TreeOk tracks t i pre tree)
    (h' : t < t' ∨ (t = t' ∧ i ≤ i')) : TreeOk tracks t' i' pre tree :=
  fun p hp => (h p hp).mono h'

theorem addTrack_ok (tracks : List (List PCmd)) (t : Nat) (tr : List PCmd) (ht : tracks[t]? = some tr) (tree tree' : SeqTree)
    (h : TreeOk tracks t 0 [] tree) (he : addTrack tree tr t = .ok tree') : TreeOk tracks t tr.length [] tree' := by
  have key : ∀ (n s : Nat) (tree : SeqTree), TreeOk tracks t s [] tree →
      (List.range' s n).foldlM (fun T i => addCommands T (tr.drop i) t i 0) tree = .ok tree' → TreeOk tracks t (s + n) [] tree' := by
    intro n
    induction n with
    | zero =>
      intro s tree h he
      simp only [List.range'_zero, List.foldlM_nil, res_pure] at he
      subst he; exact h
    | succ n ih =>
      intro s tree h he
      rw [List.range'_succ, List.foldlM_cons, res_bind] at he
      obtain ⟨T1, h1, h2⟩ := he
      have := (addCommands_ok tracks t s tr ht _ (tr.drop s) [] tree T1 le_rfl rfl h (fun h => absurd rfl h) h1).1
      have := ih (s + 1) T1 (this.mono (.inr ⟨rfl, by omega⟩)) h2
      rwa [show s + 1 + n = s + (n + 1) by omega] at this
  unfold addTrack at he
  rw [List.range_eq_range'] at he
  have := key tr.length 0 tree h he
  rwa [Nat.zero_add] at this

theorem buildTree_ok (tracks : List (List PCmd)) (top : Nat) (tree : SeqTree) (he : buildTree tracks top = .ok tree) :
    ∃ t i, TreeOk (tracks.take top) t i [] tree := by
  unfold buildTree at he
  generalize hT : tracks.take top = T at he ⊢
  have key : ∀ (l : List (List PCmd)) (k : Nat) (tree0 tree : SeqTree), (∀ j, l[j]? = T[k + j]?) → TreeOk T k 0 [] tree0 →
      (l.zipIdx k).foldlM (fun t x => addTrack t x.1 x.2) tree0 = .ok tree → TreeOk T (k + l.length) 0 [] tree := by
    intro l
    induction l with
    | nil =>
      intro k tree0 tree _ h he
      simp only [List.zipIdx_nil, List.foldlM_nil, res_pure] at he
      subst he; exact h
    | cons a l ih =>
      intro k tree0 tree hl h he
      rw [List.zipIdx_cons, List.foldlM_cons, res_bind] at he
      obtain ⟨T1, h1, h2⟩ := he
      have ha : T[k]? = some a := by rw [← Nat.add_zero k, ← hl 0]; rfl
      have := addTrack_ok T k a ha tree0 T1 h h1
      have := ih (k + 1) T1 tree (fun j => by rw [show k + 1 + j = k + (j + 1) by omega, ← hl (j + 1)]; rfl)
        (this.mono (.inl (by omega))) h2
      rwa [show k + 1 + l.length = k + (l.length + 1) by omega] at this
  have h0 : TreeOk T 0 0 [] (.node [] []) := by
    intro p hp; rw [mem_paths] at hp; simp at hp
  exact ⟨_, _, key T 0 _ tree (fun j => by rw [Nat.zero_add]) h0 he⟩

/-- What a candidate sequence says. -/
structure SeqOk (tracks : List (List PCmd)) (s : Sequence) : Prop where
  ne : s.commands ≠ []
  eligible : ∀ c ∈ s.commands, c.callLoopEligible = true
  occurs : ∀ l ∈ s.locations, Occurs tracks s.commands l.trackIdx l.cmdIdx
  once : ∀ l ∈ s.locations, 1 ≤ l.repeatCount.toNat
  twice : ∀ l ∈ s.locations, 2 ≤ l.repeatCount.toNat → Occurs tracks s.commands l.trackIdx (l.cmdIdx + s.commands.length)
  apart : s.locations.Pairwise fun a b =>
    a.trackIdx < b.trackIdx ∨ (a.trackIdx = b.trackIdx ∧ a.cmdIdx + s.commands.length * a.repeatCount.toNat ≤ b.cmdIdx)
  tie : ∀ c, s.commands.head? = some c → c.canBeFirst = false → ∃ l, s.locations = [l] ∧ l.repeatCount = 1

theorem consolidate_go_ok (tracks : List (List PCmd)) (path : List PCmd) (ls : List Location) : ∀ (cur : Location) (out : List Location),
    Occurs tracks path cur.trackIdx cur.cmdIdx → 1 ≤ cur.repeatCount.toNat →
    (2 ≤ cur.repeatCount.toNat → Occurs tracks path cur.trackIdx (cur.cmdIdx + path.length)) →
    (∀ l ∈ ls, Occurs tracks path l.trackIdx l.cmdIdx ∧ 1 ≤ l.repeatCount.toNat ∧
      (2 ≤ l.repeatCount.toNat → Occurs tracks path l.trackIdx (l.cmdIdx + path.length))) →
    (cur :: ls).Pairwise (fun a b => a.le b.trackIdx b.cmdIdx) →
    consolidate.go path.length cur ls = .ok out →
    (∀ l ∈ out, Occurs tracks path l.trackIdx l.cmdIdx ∧ 1 ≤ l.repeatCount.toNat ∧
      (2 ≤ l.repeatCount.toNat → Occurs tracks path l.trackIdx (l.cmdIdx + path.length)) ∧ cur.le l.trackIdx l.cmdIdx) ∧
    out.Pairwise (fun a b => a.trackIdx < b.trackIdx ∨ (a.trackIdx = b.trackIdx ∧ a.cmdIdx + path.length * a.repeatCount.toNat ≤ b.cmdIdx)) := by
  induction ls with
  | nil =>
    intro cur out h1 h2 h3 _ _ he
    simp only [consolidate.go, res_ok] at he
    subst he
    simp only [List.mem_singleton, forall_eq, List.pairwise_cons, List.not_mem_nil, false_implies, implies_true, List.Pairwise.nil, and_true]
    exact ⟨h1, h2, h3, .inr ⟨rfl, le_rfl⟩⟩
  | cons l ls ih =>
    intro cur out h1 h2 h3 hl hs he
    rw [List.pairwise_cons, List.pairwise_cons] at hs
    obtain ⟨hs1, hs2, hs3⟩ := hs
    rw [consolidate.go] at he
    split_ifs at he with hc1 hc2
    · exact ih cur out h1 h2 h3 (fun x hx => hl x (by simp [hx]))
        (List.pairwise_cons.2 ⟨fun x hx => hs1 x (by simp [hx]), hs3⟩) he
    · rw [res_bind] at he
      obtain ⟨k, hk, he⟩ := he
      have hk := addU8_toNat hk
      have h4 : Occurs tracks path cur.trackIdx (cur.cmdIdx + path.length) := by
        by_cases hr : 2 ≤ cur.repeatCount.toNat
        · exact h3 hr
        · have : cur.repeatCount.toNat = 1 := by omega
          rw [this, Nat.mul_one] at hc2
          rw [hc2.1, hc2.2]; exact (hl l (by simp)).1
      exact ih { cur with repeatCount := k } out h1 (by simp only [hk]; omega) (fun _ => h4) (fun x hx => hl x (by simp [hx]))
        (List.pairwise_cons.2 ⟨fun x hx => hs1 x (by simp [hx]), hs3⟩) he
    · simp only [res_bind, res_pure] at he
      obtain ⟨rest, hr, rfl⟩ := he
      obtain ⟨g1, g2, g3⟩ := hl l (by simp)
      obtain ⟨r1, r2⟩ := ih l rest g1 g2 g3 (fun x hx => hl x (by simp [hx])) (List.pairwise_cons.2 ⟨hs2, hs3⟩) hr
      have hcl := hs1 l (by simp)
      refine ⟨?_, ?_⟩
      · intro x hx
        rcases List.mem_cons.1 hx with rfl | hx
        · exact ⟨h1, h2, h3, .inr ⟨rfl, le_rfl⟩⟩
        · obtain ⟨q1, q2, q3, q4⟩ := r1 x hx
          exact ⟨q1, q2, q3, Location.le_trans hcl q4⟩
      · rw [List.pairwise_cons]
        refine ⟨?_, r2⟩
        intro x hx
        have q4 := (r1 x hx).2.2.2
        unfold Location.le at hcl q4
        generalize path.length * cur.repeatCount.toNat = m at *
        omega

theorem consolidate_ok (tracks : List (List PCmd)) (t i : Nat) (path : List PCmd) (ls out : List Location) (h : PathOk tracks t i path ls)
    (he : consolidate ls path.length = .ok out) : SeqOk tracks ⟨path, out⟩ := by
  unfold consolidate at he
  cases ls with
  | nil =>
    simp only [res_ok] at he
    subst he
    refine ⟨h.ne, h.eligible, by simp, by simp, by simp, by simp, ?_⟩
    intro c h1 h2
    obtain ⟨l, hl, -⟩ := h.tie c h1 h2
    cases hl
  | cons l ls =>
    simp only at he
    have hl := h.locs
    obtain ⟨g1, g2⟩ := consolidate_go_ok tracks path ls l out (hl.occurs l (by simp)) (hl.once l (by simp)) (hl.twice l (by simp))
      (fun x hx => ⟨hl.occurs x (by simp [hx]), hl.once x (by simp [hx]), hl.twice x (by simp [hx])⟩) hl.sorted he
    refine ⟨h.ne, h.eligible, fun x hx => (g1 x hx).1, fun x hx => (g1 x hx).2.1, fun x hx => (g1 x hx).2.2.1, g2, ?_⟩
    intro c h1 h2
    obtain ⟨l', hl', hr⟩ := h.tie c h1 h2
    cases hl'
    simp only [consolidate.go, res_ok] at he
    exact ⟨l, he.symm, hr⟩

theorem mapM_mem {α β : Type} (f : α → Res β) (l : List α) : ∀ out, l.mapM f = .ok out → ∀ b ∈ out, ∃ a ∈ l, f a = .ok b := by
  induction l with
  | nil => intro out h; simp only [List.mapM_nil, res_pure] at h; subst h; simp
  | cons a l ih =>
    intro out h b hb
    simp only [List.mapM_cons, res_bind, res_pure] at h
    obtain ⟨b0, h0, bs, h1, rfl⟩ := h
    rcases List.mem_cons.1 hb with rfl | hb
    · exact ⟨a, by simp, h0⟩
    · obtain ⟨x, hx, hf⟩ := ih bs h1 b hb
      exact ⟨x, by simp [hx], hf⟩

theorem sequences_ok (tracks : List (List PCmd)) (t i : Nat) (tree : SeqTree) (h : TreeOk tracks t i [] tree) (seqs : List Sequence)
    (he : tree.sequences = .ok seqs) : ∀ s ∈ seqs, SeqOk tracks s := by
  intro s hs
  unfold SeqTree.sequences at he
  obtain ⟨p, hp, hf⟩ := mapM_mem _ _ _ he s hs
  simp only [res_bind, res_pure] at hf
  obtain ⟨ls, h1, rfl⟩ := hf
  exact consolidate_ok tracks t i p.1 p.2 ls (h p hp) h1

theorem sumRepeats_foldlM (ls : List Location) : ∀ (a n : UInt8), ls.foldlM (fun acc l => addU8 acc l.repeatCount) a = .ok n →
    n.toNat = a.toNat + (ls.map fun l => l.repeatCount.toNat).sum := by
  induction ls with
  | nil => intro a n h; simp only [List.foldlM_nil, res_pure] at h; subst h; simp
  | cons l ls ih =>
    intro a n h
    rw [List.foldlM_cons, res_bind] at h
    obtain ⟨b, h1, h2⟩ := h
    rw [ih b n h2, addU8_toNat h1, List.map_cons, List.sum_cons]; omega

theorem worthwhile_spec (s : Sequence) (h : s.worthwhile = .ok true) : 3 < s.commands.length ∧ 2 ≤ (s.locations.map fun l => l.repeatCount.toNat).sum := by
  unfold Sequence.worthwhile at h
  split_ifs at h with hc
  · simp only [res_bind, res_pure, decide_eq_true_eq] at h
    obtain ⟨n, h1, h2⟩ := h
    have := sumRepeats_foldlM s.locations 0 n h1
    have h3 := UInt8.lt_iff_toNat_lt.1 h2
    rw [show (1 : UInt8).toNat = 1 from rfl] at h3
    rw [show (0 : UInt8).toNat = 0 from rfl] at this
    exact ⟨hc, by omega⟩
  · simp [res_pure] at h

theorem bestOf_unfold (best : Option (Nat × Sequence)) (s : Sequence) (out : Option (Nat × Sequence))
    (h : (do
      if ← s.worthwhile then
        let sc ← s.score
        match best with
        | none => return some (sc, s)
        | some (b, t) => return if b ≤ sc then some (sc, s) else some (b, t)
      else return best : Res (Option (Nat × Sequence))) = .ok out) :
    (s.worthwhile = .ok false ∧ out = best) ∨ ∃ sc, s.worthwhile = .ok true ∧ s.score = .ok sc ∧
      ((best = none ∧ out = some (sc, s)) ∨ ∃ b t, best = some (b, t) ∧ out = if b ≤ sc then some (sc, s) else some (b, t)) := by
  rw [res_bind] at h
  obtain ⟨w, h1, h2⟩ := h
  cases w with
  | false =>
    simp only [Bool.false_eq_true, if_false, res_pure] at h2
    exact .inl ⟨h1, h2.symm⟩
  | true =>
    simp only [if_true] at h2
    rw [res_bind] at h2
    obtain ⟨sc, h3, h4⟩ := h2
    refine .inr ⟨sc, h1, h3, ?_⟩
    cases best with
    | none => simp only [res_pure] at h4; exact .inl ⟨rfl, h4.symm⟩
    | some bt => obtain ⟨b, t⟩ := bt; simp only [res_pure] at h4; exact .inr ⟨b, t, rfl, h4.symm⟩

/-- The result of the search: a worthwhile candidate of the best score. -/
theorem bestOf_spec (seqs : List Sequence) : ∀ out, bestOf seqs = .ok out →
    (out = none → ∀ s ∈ seqs, s.worthwhile = .ok false) ∧
    (∀ sc s, out = some (sc, s) → s ∈ seqs ∧ s.worthwhile = .ok true ∧ s.score = .ok sc ∧
      ∀ x ∈ seqs, x.worthwhile = .ok false ∨ (x.worthwhile = .ok true ∧ ∃ y, x.score = .ok y ∧ y ≤ sc)) := by
  have key : ∀ (seqs done : List Sequence) (best out : Option (Nat × Sequence)),
      (best = none → ∀ s ∈ done, s.worthwhile = .ok false) →
      (∀ sc s, best = some (sc, s) → s ∈ done ∧ s.worthwhile = .ok true ∧ s.score = .ok sc ∧
        ∀ x ∈ done, x.worthwhile = .ok false ∨ (x.worthwhile = .ok true ∧ ∃ y, x.score = .ok y ∧ y ≤ sc)) →
      seqs.foldlM (fun best s => (do
        if ← s.worthwhile then
          let sc ← s.score
          match best with
          | none => return some (sc, s)
          | some (b, t) => return if b ≤ sc then some (sc, s) else some (b, t)
        else return best : Res (Option (Nat × Sequence)))) best = .ok out →
      (out = none → ∀ s ∈ done ++ seqs, s.worthwhile = .ok false) ∧
      (∀ sc s, out = some (sc, s) → s ∈ done ++ seqs ∧ s.worthwhile = .ok true ∧ s.score = .ok sc ∧
        ∀ x ∈ done ++ seqs, x.worthwhile = .ok false ∨ (x.worthwhile = .ok true ∧ ∃ y, x.score = .ok y ∧ y ≤ sc)) := by
    intro seqs
    induction seqs with
    | nil =>
      intro done best out h1 h2 he
      simp only [List.foldlM_nil, res_pure] at he
      subst he
      rw [List.append_nil]
      exact ⟨h1, h2⟩
    | cons a seqs ih =>
      intro done best out h1 h2 he
      rw [List.foldlM_cons, res_bind] at he
      obtain ⟨b1, hb, he⟩ := he
      have hb := bestOf_unfold best a b1 hb
      have hd : done ++ a :: seqs = (done ++ [a]) ++ seqs := by simp
      rw [hd]
      refine ih (done ++ [a]) b1 out ?_ ?_ he
      · intro h0 s hs
        rcases hb with ⟨hw, rfl⟩ | ⟨sc, hw, hsc, ⟨-, rfl⟩ | ⟨b, t, -, rfl⟩⟩
        · rcases List.mem_append.1 hs with hs | hs
          · exact h1 h0 s hs
          · rw [List.mem_singleton.1 hs]; exact hw
        · cases h0
        · split_ifs at h0
      · intro sc' s' h0
        rcases hb with ⟨hw, rfl⟩ | ⟨sc, hw, hsc, ⟨hn, rfl⟩ | ⟨b, t, hbt, rfl⟩⟩
        · obtain ⟨q1, q2, q3, q4⟩ := h2 sc' s' h0
          refine ⟨List.mem_append_left _ q1, q2, q3, ?_⟩
          intro x hx
          rcases List.mem_append.1 hx with hx | hx
          · exact q4 x hx
          · rw [List.mem_singleton.1 hx]; exact .inl hw
        · cases h0
          refine ⟨by simp, hw, hsc, ?_⟩
          intro x hx
          rcases List.mem_append.1 hx with hx | hx
          · exact .inl (h1 hn x hx)
          · rw [List.mem_singleton.1 hx]; exact .inr ⟨hw, _, hsc, le_rfl⟩
        · obtain ⟨q1, q2, q3, q4⟩ := h2 b t hbt
          split_ifs at h0 with hle
          · cases h0
            refine ⟨by simp, hw, hsc, ?_⟩
            intro x hx
            rcases List.mem_append.1 hx with hx | hx
            · rcases q4 x hx with h | ⟨h, y, hy, hyb⟩
              · exact .inl h
              · exact .inr ⟨h, y, hy, by omega⟩
            · rw [List.mem_singleton.1 hx]; exact .inr ⟨hw, _, hsc, le_rfl⟩
          · cases h0
            refine ⟨List.mem_append_left _ q1, q2, q3, ?_⟩
            intro x hx
            rcases List.mem_append.1 hx with hx | hx
            · exact q4 x hx
            · rw [List.mem_singleton.1 hx]; exact .inr ⟨hw, _, hsc, by omega⟩
  intro out h
  have := key seqs [] none out (by simp) (by simp) h
  simpa using this

theorem bestSequence_ok (tracks : List (List PCmd)) (top : Nat) (tree : SeqTree) (s : Sequence) (ht : buildTree tracks top = .ok tree)
    (hb : bestSequence tree = .ok (some s)) :
    SeqOk (tracks.take top) s ∧ 3 < s.commands.length ∧ 2 ≤ (s.locations.map fun l => l.repeatCount.toNat).sum := by
  obtain ⟨t, i, hT⟩ := buildTree_ok tracks top tree ht
  unfold bestSequence at hb
  simp only [res_bind, res_pure] at hb
  obtain ⟨seqs, h1, best, h2, h3⟩ := hb
  cases best with
  | none => cases h3
  | some b =>
    obtain ⟨sc, s'⟩ := b
    simp only [Option.map_some, Option.some.injEq] at h3
    subst h3
    obtain ⟨g1, g2, -, -⟩ := (bestOf_spec seqs _ h2).2 sc s' rfl
    exact ⟨sequences_ok _ t i tree hT seqs h1 s' g1, worthwhile_spec s' g2⟩

end M2S
