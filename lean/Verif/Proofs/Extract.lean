import Verif.Proofs.Candidates
import Mathlib.Tactic.Linarith
/-
Replacing a sequence by calls: unrolling, sizes.
-/
namespace M2S

theorem copies_zero (b : List PCmd) : copies 0 b = [] := rfl
theorem copies_succ (n : Nat) (b : List PCmd) : copies (n + 1) b = b ++ copies n b := by
  unfold copies; rw [List.replicate_succ, List.flatten_cons]
theorem copies_length (n : Nat) (b : List PCmd) : (copies n b).length = b.length * n := by
  induction n with
  | zero => rfl
  | succ n ih => rw [copies_succ, List.length_append, ih, Nat.mul_succ]; omega

theorem unroll_append (k : Nat) (b x y : List PCmd) : unroll k b (x ++ y) = unroll k b x ++ unroll k b y := by
  unfold unroll; rw [List.flatMap_append]

theorem unroll_self (k : Nat) (b x : List PCmd) (h : ∀ c ∈ x, ∀ n, c.command ≠ .callLoop k n) : unroll k b x = x := by
  induction x with
  | nil => rfl
  | cons c x ih =>
    have h1 : unrollCmd k b c = [c] := by
      unfold unrollCmd
      split
      · rename_i t n hc
        rw [if_neg]; rintro rfl; exact h c (by simp) n hc
      · rfl
    have := ih (fun d hd => h d (by simp [hd]))
    unfold unroll at *
    rw [List.flatMap_cons, h1, this]; rfl

theorem unroll_loopCmd (k : Nat) (b x : List PCmd) (n : UInt8) : unroll k b (loopCmd k n :: x) = copies n.toNat b ++ unroll k b x := by
  unfold unroll; rw [List.flatMap_cons]; simp [unrollCmd, loopCmd]

/-- Extraction at true locations can be undone. -/
theorem extractTrack_unroll (tr body : List PCmd) (k : Nat) (hk : ∀ c ∈ tr, ∀ n, c.command ≠ .callLoop k n) (ls : List Location) : ∀ last,
    last ≤ tr.length → (∀ l ∈ ls, last ≤ l.cmdIdx ∧ copies l.repeatCount.toNat body <+: tr.drop l.cmdIdx ∧ l.cmdIdx ≤ tr.length) →
    ls.Pairwise (fun a b => a.cmdIdx + body.length * a.repeatCount.toNat ≤ b.cmdIdx) →
    ∃ out, extractTrack tr body.length k ls last = .ok out ∧ unroll k body out = tr.drop last ∧
      out.length + (ls.map fun l => body.length * l.repeatCount.toNat).sum = (tr.length - last) + ls.length := by
  induction ls with
  | nil =>
    intro last hl _ _
    refine ⟨_, rfl, ?_⟩
    split_ifs with h
    · exact ⟨unroll_self k body _ (fun c hc => hk c (List.mem_of_mem_drop hc)), by simp⟩
    · rw [List.drop_of_length_le (by omega)]; exact ⟨rfl, by simp; omega⟩
  | cons l ls ih =>
    intro last hl h hs
    rw [List.pairwise_cons] at hs
    obtain ⟨g1, ⟨w, g2⟩, g3⟩ := h l (by simp)
    have hlen : l.cmdIdx + body.length * l.repeatCount.toNat ≤ tr.length := by
      have := congrArg List.length g2
      rw [List.length_append, List.length_drop, copies_length] at this
      generalize body.length * l.repeatCount.toNat = m at *
      omega
    obtain ⟨out, h1, h2, hsz⟩ := ih (l.cmdIdx + body.length * l.repeatCount.toNat) hlen
      (fun x hx => ⟨hs.1 x hx, (h x (by simp [hx])).2⟩) hs.2
    refine ⟨(tr.take l.cmdIdx).drop last ++ loopCmd k l.repeatCount :: out, ?_, ?_, ?_⟩
    · rw [extractTrack, h1]
      unfold slice
      rw [if_pos ⟨g1, g3⟩]
      rfl
    · rw [unroll_append, unroll_loopCmd, h2]
      rw [unroll_self k body _ (fun c hc => hk c (List.mem_of_mem_take (List.mem_of_mem_drop hc)))]
      have : tr.drop (l.cmdIdx + body.length * l.repeatCount.toNat) = w := by
        rw [← List.drop_drop, ← g2, ← copies_length, List.drop_left]
      rw [this, g2]
      have : tr.drop l.cmdIdx = (tr.drop last).drop (l.cmdIdx - last) := by rw [List.drop_drop]; congr 1; omega
      rw [this, List.drop_take, List.take_append_drop]
    · simp only [List.length_append, List.length_drop, List.length_take, List.length_cons, List.map_cons, List.sum_cons]
      generalize body.length * l.repeatCount.toNat = m at *
      generalize (List.map (fun l => body.length * l.repeatCount.toNat) ls).sum = S at *
      omega

/-- Extraction always succeeds at places where the sequence occurs, and how much shorter the track becomes. -/
theorem extractTrack_length (tr body : List PCmd) (k : Nat) (ls : List Location) : ∀ last,
    (∀ l ∈ ls, last ≤ l.cmdIdx ∧ l.cmdIdx + body.length * min l.repeatCount.toNat 2 ≤ tr.length) →
    ls.Pairwise (fun a b => a.cmdIdx + body.length * a.repeatCount.toNat ≤ b.cmdIdx) →
    ∃ out, extractTrack tr body.length k ls last = .ok out ∧
      out.length + (ls.map fun l => body.length * min l.repeatCount.toNat 2).sum ≤ (tr.length - last) + ls.length := by
  induction ls with
  | nil =>
    intro last _ _
    refine ⟨_, rfl, ?_⟩
    split_ifs with h
    · simp
    · simp
  | cons l ls ih =>
    intro last h hs
    rw [List.pairwise_cons] at hs
    obtain ⟨g1, g2⟩ := h l (by simp)
    obtain ⟨out, h1, h2⟩ := ih (l.cmdIdx + body.length * l.repeatCount.toNat)
      (fun x hx => ⟨hs.1 x hx, (h x (by simp [hx])).2⟩) hs.2
    have hm : body.length * min l.repeatCount.toNat 2 ≤ body.length * l.repeatCount.toNat := Nat.mul_le_mul_left _ (Nat.min_le_left _ _)
    have hslice : slice tr last l.cmdIdx = .ok ((tr.take l.cmdIdx).drop last) := by
      unfold slice
      rw [if_pos ⟨g1, by omega⟩]
    refine ⟨(tr.take l.cmdIdx).drop last ++ loopCmd k l.repeatCount :: out, ?_, ?_⟩
    · rw [extractTrack, h1, hslice]; rfl
    · simp only [List.length_append, List.length_drop, List.length_take, List.length_cons, List.map_cons, List.sum_cons]
      generalize body.length * min l.repeatCount.toNat 2 = m2 at *
      generalize body.length * l.repeatCount.toNat = m at *
      generalize (List.map (fun l => body.length * min l.repeatCount.toNat 2) ls).sum = S at *
      omega

/-- Every location leaves its call. -/
theorem extractTrack_call (tr : List PCmd) (L k : Nat) (ls : List Location) : ∀ last out, extractTrack tr L k ls last = .ok out →
    ∀ l ∈ ls, loopCmd k l.repeatCount ∈ out := by
  induction ls with
  | nil => intro _ _ _; simp
  | cons a ls ih =>
    intro last out h l hl
    simp only [extractTrack, res_bind, res_pure] at h
    obtain ⟨before, -, rest, h2, rfl⟩ := h
    rcases List.mem_cons.1 hl with rfl | hl
    · simp
    · have := ih _ rest h2 l hl
      simp [this]

/-- What is in the new track: commands of the old one and new calls. -/
theorem extractTrack_mem (tr : List PCmd) (L k : Nat) (ls : List Location) : ∀ last out, extractTrack tr L k ls last = .ok out →
    ∀ c ∈ out, c ∈ tr ∨ ∃ l ∈ ls, c = loopCmd k l.repeatCount := by
  induction ls with
  | nil =>
    intro last out h c hc
    simp only [extractTrack, res_ok] at h
    subst h
    split_ifs at hc
    · exact .inl (List.mem_of_mem_drop hc)
    · simp at hc
  | cons a ls ih =>
    intro last out h c hc
    simp only [extractTrack, res_bind, res_pure] at h
    obtain ⟨before, h1, rest, h2, rfl⟩ := h
    rcases List.mem_append.1 hc with hc | hc
    · unfold slice at h1
      split_ifs at h1
      · simp only [res_ok] at h1
        subst h1
        exact .inl (List.mem_of_mem_take (List.mem_of_mem_drop hc))
      · cases h1
    · rcases List.mem_cons.1 hc with rfl | hc
      · exact .inr ⟨a, by simp, rfl⟩
      · rcases ih _ rest h2 c hc with h | ⟨l, hl, h⟩
        · exact .inl h
        · exact .inr ⟨l, by simp [hl], h⟩

/-- `mapM` over the numbered elements of a list. -/
theorem mapM_zipIdx {α β : Type} (f : α × Nat → Res β) (l : List α) : ∀ (k : Nat),
    (∀ i a, l[i]? = some a → ∃ b, f (a, k + i) = .ok b) → ∃ out, (l.zipIdx k).mapM f = .ok out := by
  induction l with
  | nil => intro k _; exact ⟨[], rfl⟩
  | cons a l ih =>
    intro k h
    obtain ⟨b, hb⟩ := h 0 a rfl
    obtain ⟨bs, hbs⟩ := ih (k + 1) (fun i x hx => by
      have := h (i + 1) x (by simpa using hx)
      rwa [show k + (i + 1) = k + 1 + i by omega] at this)
    refine ⟨b :: bs, ?_⟩
    rw [List.zipIdx_cons, List.mapM_cons]
    simp only [Nat.add_zero] at hb
    rw [hb, hbs]; rfl

theorem mapM_zipIdx_get {α β : Type} (f : α × Nat → Res β) (l : List α) : ∀ (k : Nat) (out : List β), (l.zipIdx k).mapM f = .ok out →
    out.length = l.length ∧ ∀ i a, l[i]? = some a → ∃ b, out[i]? = some b ∧ f (a, k + i) = .ok b := by
  induction l with
  | nil =>
    intro k out h
    simp only [List.zipIdx_nil, List.mapM_nil, res_pure] at h
    subst h; simp
  | cons a l ih =>
    intro k out h
    simp only [List.zipIdx_cons, List.mapM_cons, res_bind, res_pure] at h
    obtain ⟨b, hb, bs, hbs, rfl⟩ := h
    obtain ⟨h1, h2⟩ := ih (k + 1) bs hbs
    refine ⟨by simp [h1], ?_⟩
    intro i x hx
    cases i with
    | zero => simp only [List.getElem?_cons_zero, Option.some.injEq] at hx; subst hx; exact ⟨b, rfl, hb⟩
    | succ i =>
      obtain ⟨y, hy, hf⟩ := h2 i x (by simpa using hx)
      exact ⟨y, by simpa using hy, by rwa [show k + (i + 1) = k + 1 + i by omega]⟩

/-- The track-wise view of `extractSequence`. -/
theorem extractSequence_inv (tracks : List (List PCmd)) (s : Sequence) (top : Nat) (out : List (List PCmd)) (h : extractSequence tracks s top = .ok out) :
    ∃ newTop, out = newTop ++ tracks.drop top ++ [s.commands] ∧ newTop.length = (tracks.take top).length ∧
      ∀ i tr, (tracks.take top)[i]? = some tr → ∃ o, newTop[i]? = some o ∧
        extractTrack tr s.commands.length tracks.length (s.locations.filter fun l => l.trackIdx = i) 0 = .ok o := by
  unfold extractSequence at h
  simp only [res_bind, res_pure] at h
  obtain ⟨newTop, h1, rfl⟩ := h
  obtain ⟨h2, h3⟩ := mapM_zipIdx_get _ _ 0 newTop h1
  refine ⟨newTop, rfl, h2, ?_⟩
  intro i tr hi
  obtain ⟨o, ho, hf⟩ := h3 i tr hi
  exact ⟨o, ho, by simpa using hf⟩

theorem sum_filter_split (f : Location → Nat) (ls : List Location) (n : Nat) :
    ((ls.filter fun l => l.trackIdx < n).map f).sum + ((ls.filter fun l => l.trackIdx = n).map f).sum =
      ((ls.filter fun l => l.trackIdx < n + 1).map f).sum := by
  induction ls with
  | nil => rfl
  | cons l ls ih =>
    simp only [List.filter_cons, decide_eq_true_eq]
    rcases Nat.lt_trichotomy l.trackIdx n with h | h | h
    · rw [if_pos h, if_neg (by omega), if_pos (by omega)]; simp only [List.map_cons, List.sum_cons]; omega
    · rw [if_neg (by omega), if_pos h, if_pos (by omega)]; simp only [List.map_cons, List.sum_cons]; omega
    · rw [if_neg (by omega), if_neg (by omega), if_neg (by omega)]; omega

theorem sum_filter_lt (f : Location → Nat) (ls : List Location) (n : Nat) :
    ((List.range n).map fun i => ((ls.filter fun l => l.trackIdx = i).map f).sum).sum = ((ls.filter fun l => l.trackIdx < n).map f).sum := by
  induction n with
  | zero => simp
  | succ n ih =>
    rw [List.range_succ, List.map_append, List.sum_append, ih, ← sum_filter_split]
    simp

theorem sum_le_pointwise (n : Nat) (f g : Nat → Nat) (h : ∀ i < n, f i ≤ g i) : ((List.range n).map f).sum ≤ ((List.range n).map g).sum := by
  induction n with
  | zero => simp
  | succ n ih =>
    rw [List.range_succ, List.map_append, List.map_append, List.sum_append, List.sum_append]
    have := ih (fun i hi => h i (by omega))
    have := h n (by omega)
    simp only [List.map_cons, List.map_nil, List.sum_cons, List.sum_nil]; omega

theorem sum_range_getD (l : List (List PCmd)) : ((List.range l.length).map fun i => (l.getD i []).length).sum = (l.map List.length).sum := by
  congr 1
  apply List.ext_getElem
  · simp
  · intro i h1 h2
    simp only [List.getElem_map, List.getElem_range]
    rw [List.getD_eq_getElem?_getD, List.getElem?_eq_getElem (by simpa using h2)]; rfl

theorem sum_range_add (n : Nat) (f g : Nat → Nat) : ((List.range n).map fun i => f i + g i).sum = ((List.range n).map f).sum + ((List.range n).map g).sum := by
  induction n with
  | zero => rfl
  | succ n ih =>
    simp only [List.range_succ, List.map_append, List.sum_append, ih, List.map_cons, List.map_nil, List.sum_cons, List.sum_nil]; omega

theorem occurs_length {tracks : List (List PCmd)} {path tr : List PCmd} {t i : Nat} (h : Occurs tracks path t i) (ht : tracks[t]? = some tr)
    (hne : path ≠ []) : i + path.length ≤ tr.length := by
  obtain ⟨tr', h1, h2⟩ := h
  rw [ht] at h1; cases h1
  have := h2.length_le
  rw [List.length_drop] at this
  have := List.length_pos_iff.2 hne
  omega

/-- Extraction always succeeds for a candidate; the top-level tracks together become shorter by at least the stated amount. -/
theorem extractSequence_size (tracks : List (List PCmd)) (s : Sequence) (top : Nat) (htop : top ≤ tracks.length) (h : SeqOk (tracks.take top) s) :
    ∃ out, extractSequence tracks s top = .ok out ∧ out.length = tracks.length + 1 ∧
      topLevelSize out top + (s.locations.map fun l => s.commands.length * min l.repeatCount.toNat 2).sum ≤ topLevelSize tracks top + s.locations.length := by
  have htr : ∀ i tr, (tracks.take top)[i]? = some tr → ∃ o,
      extractTrack tr s.commands.length tracks.length (s.locations.filter fun l => l.trackIdx = i) 0 = .ok o ∧
      o.length + ((s.locations.filter fun l => l.trackIdx = i).map fun l => s.commands.length * min l.repeatCount.toNat 2).sum ≤
        tr.length + (s.locations.filter fun l => l.trackIdx = i).length := by
    intro i tr hi
    have := extractTrack_length tr s.commands tracks.length (s.locations.filter fun l => l.trackIdx = i) 0 ?_ ?_
    · simpa using this
    · intro l hl
      simp only [List.mem_filter, decide_eq_true_eq] at hl
      obtain ⟨hl, rfl⟩ := hl
      refine ⟨Nat.zero_le _, ?_⟩
      have h1 := occurs_length (h.occurs l hl) hi h.ne
      by_cases h2 : 2 ≤ l.repeatCount.toNat
      · have h3 := occurs_length (h.twice l hl h2) hi h.ne
        rw [Nat.min_eq_right h2]; omega
      · have := Nat.mul_le_mul_left s.commands.length (show min l.repeatCount.toNat 2 ≤ 1 by omega)
        omega
    · have := (List.Pairwise.filter (fun l : Location => decide (l.trackIdx = i)) h.apart)
      refine List.Pairwise.imp_of_mem ?_ this
      intro a b ha hb hab
      simp only [List.mem_filter, decide_eq_true_eq] at ha hb
      rcases hab with hab | hab
      · omega
      · exact hab.2
  obtain ⟨newTop, hn⟩ := mapM_zipIdx (fun x : List PCmd × Nat =>
    extractTrack x.1 s.commands.length tracks.length (s.locations.filter fun l => l.trackIdx = x.2) 0) (tracks.take top) 0
    (fun i a ha => by
      obtain ⟨o, ho, -⟩ := htr i a ha
      exact ⟨o, by simpa using ho⟩)
  have he : extractSequence tracks s top = .ok (newTop ++ tracks.drop top ++ [s.commands]) := by
    unfold extractSequence
    rw [hn]; rfl
  refine ⟨_, he, ?_, ?_⟩
  · obtain ⟨h1, -⟩ := mapM_zipIdx_get _ _ 0 newTop hn
    simp only [List.length_append, h1, List.length_take, List.length_drop, List.length_singleton]; omega
  · obtain ⟨h1, h2⟩ := mapM_zipIdx_get _ _ 0 newTop hn
    have hnl : newTop.length = top := by rw [h1, List.length_take]; omega
    have e1 : topLevelSize (newTop ++ tracks.drop top ++ [s.commands]) top = (newTop.map List.length).sum := by
      unfold topLevelSize
      rw [List.append_assoc, List.take_append_of_le_length (by omega), List.take_of_length_le (by omega)]
    have e2 : ∀ f : Location → Nat, ((s.locations.filter fun l => l.trackIdx < top).map f).sum = (s.locations.map f).sum := by
      intro f
      congr 2
      rw [List.filter_eq_self]
      intro l hl
      obtain ⟨tr, ht, -⟩ := h.occurs l hl
      have := (List.getElem?_eq_some_iff.1 ht).1
      rw [List.length_take] at this
      simp only [decide_eq_true_eq]; omega
    have e3 : s.locations.length = (s.locations.map fun _ => 1).sum := by simp
    rw [e1, e3, ← e2, ← e2, ← sum_filter_lt, ← sum_filter_lt, ← sum_range_getD, hnl]
    have e4 : topLevelSize tracks top = ((List.range top).map fun i => ((tracks.take top).getD i []).length).sum := by
      unfold topLevelSize
      rw [← sum_range_getD, List.length_take, Nat.min_eq_left htop]
    rw [e4, ← sum_range_add, ← sum_range_add]
    apply sum_le_pointwise
    intro i hi
    have hlt : i < (tracks.take top).length := by rw [List.length_take]; omega
    have hg := List.getElem?_eq_getElem hlt
    obtain ⟨b, hb, hf⟩ := h2 i _ hg
    obtain ⟨o, ho, hlen⟩ := htr i _ hg
    simp only [Nat.zero_add] at hf
    rw [hf] at ho; cases ho
    rw [List.getD_eq_getElem?_getD, hb, List.getD_eq_getElem?_getD, hg]
    simpa using hlen

theorem sum_min_ge (ls : List Location) (h1 : ∀ l ∈ ls, 1 ≤ l.repeatCount.toNat) :
    ls.length ≤ (ls.map fun l => min l.repeatCount.toNat 2).sum ∧
    ((ls.map fun l => l.repeatCount.toNat).sum ≥ 2 → 2 ≤ (ls.map fun l => min l.repeatCount.toNat 2).sum) := by
  induction ls with
  | nil => simp
  | cons l ls ih =>
    obtain ⟨i1, i2⟩ := ih (fun x hx => h1 x (by simp [hx]))
    have := h1 l (by simp)
    simp only [List.length_cons, List.map_cons, List.sum_cons]
    refine ⟨by omega, ?_⟩
    intro h
    by_cases h2 : 2 ≤ l.repeatCount.toNat
    · omega
    · have hpos : ls.length ≠ 0 := by
        intro h0
        rw [List.length_eq_zero_iff] at h0
        subst h0
        simp at h; omega
      omega

theorem sum_mul_left (k : Nat) (f : Location → Nat) (ls : List Location) : (ls.map fun l => k * f l).sum = k * (ls.map f).sum := by
  induction ls with
  | nil => rfl
  | cons l ls ih => simp only [List.map_cons, List.sum_cons, ih, Nat.mul_add]

/-- One round makes the top-level tracks shorter, by more than the length of the new subroutine. -/
theorem round_shrinks (tracks : List (List PCmd)) (s : Sequence) (top : Nat) (htop : top ≤ tracks.length) (h : SeqOk (tracks.take top) s)
    (hL : 3 < s.commands.length) (hr : 2 ≤ (s.locations.map fun l => l.repeatCount.toNat).sum) :
    ∃ out, extractSequence tracks s top = .ok out ∧ out.length = tracks.length + 1 ∧ topLevelSize out top + s.commands.length + 2 ≤ topLevelSize tracks top := by
  obtain ⟨out, h1, h2, h3⟩ := extractSequence_size tracks s top htop h
  refine ⟨out, h1, h2, ?_⟩
  obtain ⟨m1, m2⟩ := sum_min_ge s.locations h.once
  have m2 := m2 hr
  rw [sum_mul_left] at h3
  generalize (s.locations.map fun l => min l.repeatCount.toNat 2).sum = M at *
  generalize s.commands.length = L at *
  generalize s.locations.length = n at *
  have : L * M ≥ L + M + 2 := by nlinarith
  omega

end M2S
