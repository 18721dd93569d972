import Verif.Proofs.Optimise
/-
The sequence tree is complete: sequences that occur twice have a node that knows it.
-/
namespace M2S

/-- The commands up to the first one that cannot be in a loop. -/
def elig (cmds : List PCmd) : List PCmd := cmds.takeWhile PCmd.callLoopEligible

/-- Nodes of a tree by the commands on the way to them; with `g`, no edge on the way begins with a tie. -/
inductive At (g : Bool) : SeqTree → List PCmd → List Location → Prop
  | here {ls : List Location} {es : List (List PCmd × SeqTree)} {e : List PCmd × SeqTree} (he : e ∈ es)
      (hg : g = true → ∀ c, e.1.head? = some c → c.canBeFirst = true) : At g (.node ls es) e.1 e.2.locations
  | there {ls : List Location} {es : List (List PCmd × SeqTree)} {e : List PCmd × SeqTree} {v : List PCmd} {l : List Location} (he : e ∈ es)
      (hg : g = true → ∀ c, e.1.head? = some c → c.canBeFirst = true) (h : At g e.2 v l) : At g (.node ls es) (e.1 ++ v) l

theorem at_iff {g : Bool} {ls : List Location} {es : List (List PCmd × SeqTree)} {v : List PCmd} {l : List Location} : At g (.node ls es) v l ↔
    ∃ e ∈ es, (g = true → ∀ c, e.1.head? = some c → c.canBeFirst = true) ∧ ((v = e.1 ∧ l = e.2.locations) ∨ ∃ v', v = e.1 ++ v' ∧ At g e.2 v' l) := by
  constructor
  · intro h
    cases h with
    | here he hg => exact ⟨_, he, hg, .inl ⟨rfl, rfl⟩⟩
    | there he hg h => exact ⟨_, he, hg, .inr ⟨_, rfl, h⟩⟩
  · rintro ⟨e, he, hg, ⟨rfl, rfl⟩ | ⟨v', rfl, h⟩⟩
    · exact .here he hg
    · exact .there he hg h

theorem at_paths : ∀ (v : List PCmd) (tree : SeqTree) (l : List Location) (pre : List PCmd), At false tree v l → (pre ++ v, l) ∈ tree.paths pre := by
  intro v tree l pre h
  induction h generalizing pre with
  | here he _ => exact (mem_paths _ _ _ _).2 ⟨_, he, .inl rfl⟩
  | @there ls es e v l he _ h ih =>
    refine (mem_paths _ _ _ _).2 ⟨_, he, .inr ?_⟩
    have := ih (pre ++ e.1)
    rwa [List.append_assoc] at this

theorem At.any {g : Bool} {tree : SeqTree} {v : List PCmd} {l : List Location} (h : At g tree v l) : At false tree v l := by
  induction h with
  | here he _ => exact .here he (by simp)
  | there he _ _ ih => exact .there he (by simp) ih

/-- Edges of a node that do not begin with a tie begin differently. -/
inductive Trie : SeqTree → Prop
  | node {ls : List Location} {es : List (List PCmd × SeqTree)} (lab : ∀ e ∈ es, e.1 ≠ [] ∧ ∀ c ∈ e.1, c.callLoopEligible = true)
      (dist : es.Pairwise fun a b => ∀ c, a.1.head? = some c → b.1.head? = some c → c.canBeFirst = false) (sub : ∀ e ∈ es, Trie e.2) : Trie (.node ls es)

theorem trie_iff {ls : List Location} {es : List (List PCmd × SeqTree)} : Trie (.node ls es) ↔ (∀ e ∈ es, e.1 ≠ [] ∧ ∀ c ∈ e.1, c.callLoopEligible = true) ∧
    (es.Pairwise fun a b => ∀ c, a.1.head? = some c → b.1.head? = some c → c.canBeFirst = false) ∧ ∀ e ∈ es, Trie e.2 :=
  ⟨fun h => by cases h with | node a b c => exact ⟨a, b, c⟩, fun h => .node h.1 h.2.1 h.2.2⟩

theorem Trie.same_edge {ls : List Location} {es : List (List PCmd × SeqTree)} (h : Trie (.node ls es)) {a b : List PCmd × SeqTree} (ha : a ∈ es) (hb : b ∈ es) {c : PCmd}
    (h1 : a.1.head? = some c) (h2 : b.1.head? = some c) (hc : c.canBeFirst = true) : a = b := by
  obtain ⟨-, hd, -⟩ := trie_iff.mp h
  by_contra hne
  rcases List.pairwise_iff_getElem.mp hd with hd
  obtain ⟨i, hi, rfl⟩ := List.getElem_of_mem ha
  obtain ⟨j, hj, rfl⟩ := List.getElem_of_mem hb
  rcases Nat.lt_trichotomy i j with hij | rfl | hij
  · rw [hd i j hi hj hij c h1 h2] at hc; cases hc
  · exact hne rfl
  · rw [hd j i hj hi hij c h2 h1] at hc; cases hc

theorem At.ne {g : Bool} {tree : SeqTree} {v : List PCmd} {l : List Location} (h : At g tree v l) (ht : Trie tree) : v ≠ [] := by
  cases h with
  | here he _ => exact ((trie_iff.mp ht).1 _ he).1
  | there he _ _ => simp [((trie_iff.mp ht).1 _ he).1]

theorem head_of_prefix {c : PCmd} {cs v w : List PCmd} (h : v <+: w) (hv : v ≠ []) (hw : w = c :: cs) : v.head? = some c := by
  subst hw
  cases v with
  | nil => exact absurd rfl hv
  | cons x xs => obtain ⟨t, ht⟩ := h; simp at ht; simp [ht.1]

/-- Two nodes whose ways share a sequence have a common ancestor behind that sequence. -/
theorem common_node : ∀ (n : Nat) (w : List PCmd) (tree : SeqTree) (p q : List PCmd) (lp lq : List Location), w.length ≤ n → Trie tree → w ≠ [] → (∀ c ∈ w, c.canBeFirst = true) →
    At false tree p lp → At false tree q lq → w <+: p → w <+: q → ∃ v l, At true tree v l ∧ w <+: v ∧ v <+: p ∧ v <+: q := by
  intro n
  induction n with
  | zero =>
    intro w _ _ _ _ _ h _ hw
    exact absurd (List.length_eq_zero_iff.mp (by omega)) hw
  | succ n ih =>
    intro w tree p q lp lq hn ht hw hc hp hq h1 h2
    obtain ⟨ls, es⟩ := tree
    obtain ⟨a, ha, -, hp⟩ := at_iff.mp hp
    obtain ⟨b, hb, -, hq⟩ := at_iff.mp hq
    obtain ⟨hlab, -, hsub⟩ := trie_iff.mp ht
    obtain ⟨c, cs, rfl⟩ := List.exists_cons_of_ne_nil hw
    have hap : a.1 <+: p := by rcases hp with ⟨rfl, -⟩ | ⟨v', rfl, -⟩ <;> simp
    have hbq : b.1 <+: q := by rcases hq with ⟨rfl, -⟩ | ⟨v', rfl, -⟩ <;> simp
    obtain ⟨tp, hpe⟩ := h1
    obtain ⟨tq, hqe⟩ := h2
    have hac := head_of_prefix hap (hlab a ha).1 hpe.symm
    have hbc := head_of_prefix hbq (hlab b hb).1 hqe.symm
    have hcf := hc c (by simp)
    have := ht.same_edge ha hb hac hbc hcf
    subst this
    have hg : true = true → ∀ x, a.1.head? = some x → x.canBeFirst = true := fun _ x hx => by rw [hac] at hx; cases hx; exact hcf
    by_cases hlen : (c :: cs).length ≤ a.1.length
    · exact ⟨a.1, _, .here ha hg, List.prefix_of_prefix_length_le ⟨tp, hpe⟩ hap hlen, hap, hbq⟩
    · have haw : a.1 <+: c :: cs := List.prefix_of_prefix_length_le hap ⟨tp, hpe⟩ (by omega)
      obtain ⟨w', hw'⟩ := haw
      have hlp : a.1.length + w'.length = (c :: cs).length := by rw [← hw']; simp
      have hal : 0 < a.1.length := List.length_pos_iff.mpr (hlab a ha).1
      have sub : ∀ {r : List PCmd} {lr : List Location} {tr : List PCmd}, c :: cs ++ tr = r → ((r = a.1 ∧ lr = a.2.locations) ∨ ∃ v', r = a.1 ++ v' ∧ At false a.2 v' lr) →
          ∃ v', r = a.1 ++ v' ∧ At false a.2 v' lr ∧ w' <+: v' := by
        intro r lr tr hr h
        rcases h with ⟨rfl, -⟩ | ⟨v', rfl, h⟩
        · have := congrArg List.length hr
          simp only [List.length_append] at this
          omega
        · refine ⟨v', rfl, h, tr, ?_⟩
          rw [← hw', List.append_assoc] at hr
          exact List.append_cancel_left hr
      obtain ⟨p', rfl, hp', hwp⟩ := sub hpe hp
      obtain ⟨q', rfl, hq', hwq⟩ := sub hqe hq
      obtain ⟨v, l, k1, k2, k3, k4⟩ := ih w' a.2 p' q' lp lq (by omega) (hsub a ha)
        (by rintro rfl; simp at hlp; simp only [List.length_cons] at hlen; omega) (fun x hx => hc x (by rw [← hw']; simp [hx])) hp' hq' hwp hwq
      refine ⟨a.1 ++ v, l, .there ha hg k1, ?_, ?_, ?_⟩
      · rw [← hw']; exact (List.prefix_append_right_inj _).2 k2
      · exact (List.prefix_append_right_inj _).2 k3
      · exact (List.prefix_append_right_inj _).2 k4

/-! ### Locations -/

/-- There are two places, or the first place has a repeat. -/
def Good (ls : List Location) : Prop := (∃ a ∈ ls, ∃ b ∈ ls, a.pos ≠ b.pos) ∨ ∃ a rest, ls = a :: rest ∧ 2 ≤ a.repeatCount.toNat

/-- Every track with a location still has one. -/
def TrackGrow (l l' : List Location) : Prop := ∀ a ∈ l, ∃ b ∈ l', b.trackIdx = a.trackIdx

/-- No knowledge is lost. -/
def Grow (l l' : List Location) : Prop := TrackGrow l l' ∧ (Good l → Good l')

/-- The place `(t, i)` has been added. -/
def Touch (l l' : List Location) (t i : Nat) : Prop :=
  (∃ a ∈ l', a.trackIdx = t) ∧ (l ≠ [] → (∀ a ∈ l, a.pos ≠ (t, i) ∧ 1 ≤ a.repeatCount.toNat) → Good l')

theorem Grow.refl (l : List Location) : Grow l l := ⟨fun a ha => ⟨a, ha, rfl⟩, id⟩

theorem TrackGrow.trans {a b c : List Location} (h : TrackGrow a b) (h' : TrackGrow b c) : TrackGrow a c := fun x hx => by
  obtain ⟨y, hy, e⟩ := h x hx
  obtain ⟨z, hz, e'⟩ := h' y hy
  exact ⟨z, hz, e'.trans e⟩

theorem Grow.trans {a b c : List Location} (h : Grow a b) (h' : Grow b c) : Grow a c := ⟨h.1.trans h'.1, fun g => h'.2 (h.2 g)⟩

theorem Touch.grow {a b c : List Location} {t i : Nat} (h : Touch a b t i) (h' : Grow b c) : Touch a c t i := by
  refine ⟨?_, fun h1 h2 => h'.2 (h.2 h1 h2)⟩
  obtain ⟨x, hx, e⟩ := h.1
  obtain ⟨y, hy, e'⟩ := h'.1 x hx
  exact ⟨y, hy, e'.trans e⟩

/-- What `addLocation` does. -/
theorem addLocation_cases (t i L : Nat) : ∀ (l l' : List Location), addLocation l t i L = .ok l' →
    l' = l ++ [⟨t, i, 1⟩] ∨ ∃ a x k b, l = a ++ x :: b ∧ (∀ y ∈ a, ¬ (y.trackIdx = t ∧ y.cmdIdx + L = i)) ∧ x.trackIdx = t ∧ x.cmdIdx + L = i ∧
      k.toNat = x.repeatCount.toNat + 1 ∧ l' = a ++ { x with repeatCount := k } :: b := by
  intro l
  induction l with
  | nil => intro l' h; simp only [addLocation, Except.ok.injEq] at h; left; rw [← h]; rfl
  | cons x ls ih =>
    intro l' h
    rw [addLocation] at h
    split_ifs at h with hc
    · simp only [res_bind, res_pure] at h
      obtain ⟨k, hk, rfl⟩ := h
      right
      exact ⟨[], x, k, ls, rfl, by simp, hc.1, hc.2, addU8_toNat hk, rfl⟩
    · simp only [res_bind, res_pure] at h
      obtain ⟨ls', h1, rfl⟩ := h
      rcases ih ls' h1 with rfl | ⟨a, y, k, b, rfl, h2, h3, h4, h5, rfl⟩
      · left; rfl
      · right
        refine ⟨x :: a, y, k, b, rfl, ?_, h3, h4, h5, rfl⟩
        intro z hz
        rcases List.mem_cons.mp hz with rfl | hz
        · exact hc
        · exact h2 z hz

theorem addLocation_grow {t i L : Nat} {l l' : List Location} (h : addLocation l t i L = .ok l') : Grow l l' := by
  rcases addLocation_cases t i L l l' h with rfl | ⟨a, x, k, b, rfl, -, -, -, hk, rfl⟩
  · refine ⟨fun y hy => ⟨y, by simp [hy], rfl⟩, ?_⟩
    rintro (⟨y, hy, z, hz, e⟩ | ⟨y, r, rfl, e⟩)
    · exact .inl ⟨y, by simp [hy], z, by simp [hz], e⟩
    · exact .inr ⟨y, _, rfl, e⟩
  · have hm : ∀ y ∈ a ++ x :: b, ∃ z ∈ a ++ { x with repeatCount := k } :: b, z.pos = y.pos := by
      intro y hy
      rcases List.mem_append.mp hy with hy | hy
      · exact ⟨y, by simp [hy], rfl⟩
      · rcases List.mem_cons.mp hy with rfl | hy
        · exact ⟨{ y with repeatCount := k }, by simp, rfl⟩
        · exact ⟨y, by simp [hy], rfl⟩
    refine ⟨fun y hy => ?_, ?_⟩
    · obtain ⟨z, hz, e⟩ := hm y hy
      exact ⟨z, hz, congrArg Prod.fst e⟩
    · rintro (⟨y, hy, z, hz, e⟩ | ⟨y, r, hy, e⟩)
      · obtain ⟨y', hy', e1⟩ := hm y hy
        obtain ⟨z', hz', e2⟩ := hm z hz
        exact .inl ⟨y', hy', z', hz', by rw [e1, e2]; exact e⟩
      · right
        cases a with
        | nil =>
          simp only [List.nil_append, List.cons.injEq] at hy
          exact ⟨_, _, rfl, by simp only; rw [hk, hy.1]; omega⟩
        | cons a0 a =>
          simp only [List.cons_append, List.cons.injEq] at hy
          exact ⟨a0, _, rfl, by rw [hy.1]; exact e⟩

theorem addLocation_touch {t i L : Nat} {l l' : List Location} (h : addLocation l t i L = .ok l') : Touch l l' t i := by
  rcases addLocation_cases t i L l l' h with rfl | ⟨a, x, k, b, rfl, hn, h1, h2, hk, rfl⟩
  · refine ⟨⟨⟨t, i, 1⟩, by simp, rfl⟩, fun hne hp => ?_⟩
    obtain ⟨y, ys, rfl⟩ := List.exists_cons_of_ne_nil hne
    exact .inl ⟨y, by simp, ⟨t, i, 1⟩, by simp, (hp y (by simp)).1⟩
  · refine ⟨⟨{ x with repeatCount := k }, by simp, h1⟩, fun _ hp => ?_⟩
    cases a with
    | nil => exact .inr ⟨_, _, rfl, by simp only; rw [hk]; have := (hp x (by simp)).2; omega⟩
    | cons a0 a =>
      left
      refine ⟨a0, by simp, { x with repeatCount := k }, by simp, ?_⟩
      intro e
      simp only [Location.pos, Prod.mk.injEq] at e
      exact hn a0 (by simp) ⟨by rw [e.1]; exact h1, by rw [e.2]; exact h2⟩

theorem addLocation_once {t i L : Nat} {l l' : List Location} (h : addLocation l t i L = .ok l') (ho : ∀ a ∈ l, 1 ≤ a.repeatCount.toNat) :
    ∀ a ∈ l', 1 ≤ a.repeatCount.toNat := by
  rcases addLocation_cases t i L l l' h with rfl | ⟨a, x, k, b, rfl, -, -, -, hk, rfl⟩
  · intro y hy
    rcases List.mem_append.mp hy with hy | hy
    · exact ho y hy
    · rw [List.mem_singleton.mp hy]; simp
  · intro y hy
    rcases List.mem_append.mp hy with hy | hy
    · exact ho y (by simp [hy])
    · rcases List.mem_cons.mp hy with rfl | hy
      · simp only; omega
      · exact ho y (by simp [hy])

theorem addLocation_mem {t i L : Nat} {l l' : List Location} (h : addLocation l t i L = .ok l') : ∀ a ∈ l', a.pos = (t, i) ∨ ∃ b ∈ l, b.pos = a.pos := by
  intro a ha
  have hm : a.pos ∈ l'.map Location.pos := List.mem_map.mpr ⟨a, ha, rfl⟩
  rcases addLocation_pos l t i L l' h with e | e <;> rw [e] at hm
  · obtain ⟨b, hb, e⟩ := List.mem_map.mp hm; exact .inr ⟨b, hb, e⟩
  · rcases List.mem_append.mp hm with hm | hm
    · obtain ⟨b, hb, e⟩ := List.mem_map.mp hm; exact .inr ⟨b, hb, e⟩
    · exact .inl (List.mem_singleton.mp hm)

theorem readd_facts (L : Nat) : ∀ (old acc acc' : List Location), readdLocations old L acc = .ok acc' →
    ((∀ a ∈ acc, 1 ≤ a.repeatCount.toNat) → ∀ a ∈ acc', 1 ≤ a.repeatCount.toNat) ∧ (∀ a ∈ acc', (∃ b ∈ acc, b.pos = a.pos) ∨ ∃ b ∈ old, b.pos = a.pos) ∧
    TrackGrow acc acc' ∧ TrackGrow old acc' := by
  intro old
  induction old with
  | nil =>
    intro acc acc' h
    simp only [readdLocations, List.foldlM_nil, res_pure] at h
    subst h
    exact ⟨id, fun a ha => .inl ⟨a, ha, rfl⟩, (Grow.refl _).1, by simp [TrackGrow]⟩
  | cons x old ih =>
    intro acc acc' h
    unfold readdLocations at h
    rw [List.foldlM_cons, res_bind] at h
    obtain ⟨acc1, h1, h2⟩ := h
    obtain ⟨k1, k2, k3, k4⟩ := ih acc1 acc' h2
    refine ⟨fun ho => k1 (addLocation_once h1 ho), ?_, (addLocation_grow h1).1.trans k3, ?_⟩
    · intro a ha
      rcases k2 a ha with ⟨b, hb, e⟩ | ⟨b, hb, e⟩
      · rcases addLocation_mem h1 b hb with e' | ⟨d, hd, e'⟩
        · exact .inr ⟨x, by simp, by rw [← e, e']; rfl⟩
        · exact .inl ⟨d, hd, e'.trans e⟩
      · exact .inr ⟨b, by simp [hb], e⟩
    · intro a ha
      rcases List.mem_cons.mp ha with rfl | ha
      · obtain ⟨b, hb, e⟩ := (addLocation_touch h1).1
        obtain ⟨d, hd, e'⟩ := k3 b hb
        exact ⟨d, hd, e'.trans e⟩
      · exact k4 a ha

/-! ### Adding a suffix -/

theorem addCommands_locations {tree tree' : SeqTree} {cmds : List PCmd} {t i L : Nat} (h : addCommands tree cmds t i L = .ok tree') :
    (if L > 0 then addLocation tree.locations t i L else pure tree.locations) = .ok tree'.locations := by
  rw [addCommands_unfold, res_bind] at h
  obtain ⟨locs, h1, h2⟩ := h
  rw [h1]
  congr 1
  cases cmds with
  | nil => simp only [res_pure] at h2; subst h2; rfl
  | cons c cs =>
    simp only at h2
    cases hf : findEdge c tree.edges with
    | none => simp only [hf, res_pure] at h2; subst h2; rfl
    | some k =>
      simp only [hf] at h2
      cases hk : tree.edges[k]? with
      | none => simp only [hk, res_pure] at h2; subst h2; rfl
      | some e =>
        obtain ⟨ecmds, target⟩ := e
        simp only [hk] at h2
        split_ifs at h2 <;> simp only [res_bind, res_pure] at h2
        · obtain ⟨_, _, _, _, rfl⟩ := h2; rfl
        · obtain ⟨_, _, _, _, rfl⟩ := h2; rfl
        · obtain ⟨_, _, _, _, rfl⟩ := h2; rfl
        · subst h2; rfl

/-- What adding the commands `cmds` of place `(t, i)` does to a tree. -/
structure Added (tree tree' : SeqTree) (cmds : List PCmd) (t i : Nat) : Prop where
  trie : Trie tree'
  keep : ∀ v l, At false tree v l → ∃ l', At false tree' v l'
  full : elig cmds ≠ [] → ∃ l, At false tree' (elig cmds) l
  node : ∀ v l', At true tree' v l' →
    (∃ l, At true tree v l ∧ Grow l l' ∧ (v <+: elig cmds → Touch l l' t i)) ∨
    (v = elig cmds ∧ (∃ a ∈ l', a.trackIdx = t) ∧ ∀ y l, At false tree y l → ¬ v <+: y) ∨
    (v <+: elig cmds ∧ ∃ y l, At true tree y l ∧ TrackGrow l l' ∧ Touch l l' t i ∧ ∀ z lz, At false tree z lz → v <+: z → y <+: z)

theorem elig_append {a b : List PCmd} (h : ∀ c ∈ a, c.callLoopEligible = true) : elig (a ++ b) = a ++ elig b := by
  unfold elig; rw [List.takeWhile_append_of_pos h]

theorem at_nil_edges {g : Bool} {ls : List Location} {v : List PCmd} {l : List Location} : ¬ At g (.node ls []) v l := by
  rw [at_iff]; simp

theorem at_locs {g : Bool} {ls ls' : List Location} {es : List (List PCmd × SeqTree)} {v : List PCmd} {l : List Location} (h : At g (.node ls es) v l) : At g (.node ls' es) v l :=
  at_iff.mpr (at_iff.mp h)

theorem findEdge_none {c : PCmd} {es : List (List PCmd × SeqTree)} (h : findEdge c es = none) : ∀ e ∈ es, e.1.head? ≠ some c := by
  unfold findEdge at h
  rw [List.findIdx?_eq_none_iff] at h
  intro e he
  simpa using h e he

/-- A new edge, when no edge begins with the same command or the command is a tie. -/
theorem added_fresh {ls locs : List Location} {es : List (List PCmd × SeqTree)} {c : PCmd} {cs : List PCmd} {t i : Nat} (ht : Trie (.node ls es))
    (hc : c.canBeFirst = true → ∀ e ∈ es, e.1.head? ≠ some c) : Added (.node ls es) (.node locs (es ++ freshEdge (c :: cs) t i)) (c :: cs) t i := by
  obtain ⟨hlab, hdist, hsub⟩ := trie_iff.mp ht
  have hold : ∀ v l, At true (.node ls es) v l → ¬ v <+: elig (c :: cs) := by
    intro v _ hv hpre
    obtain ⟨e, he, hg, hv⟩ := at_iff.mp hv
    have hev : e.1 <+: v := by rcases hv with ⟨rfl, -⟩ | ⟨v', rfl, -⟩ <;> simp
    have hh := head_of_prefix ((hev.trans hpre).trans (List.takeWhile_prefix _)) (hlab e he).1 rfl
    exact hc (hg rfl c hh) e he hh
  by_cases hel : elig (c :: cs) = []
  · have : freshEdge (c :: cs) t i = [] := by unfold freshEdge; simp only; rw [if_pos]; exact List.isEmpty_iff.mpr hel
    rw [this, List.append_nil]
    exact ⟨trie_iff.mpr ⟨hlab, hdist, hsub⟩, fun v l h => ⟨l, at_locs h⟩, fun h => absurd hel h,
      fun v l h => .inl ⟨l, at_locs h, Grow.refl _, fun hp => absurd hp (hold v l (at_locs h))⟩⟩
  · have hce : c.callLoopEligible = true := by
      by_contra hce
      exact hel (by unfold elig; rw [List.takeWhile_cons_of_neg hce])
    have hf : freshEdge (c :: cs) t i = [(elig (c :: cs), .node [⟨t, i, 1⟩] [])] := by
      unfold freshEdge; simp only; rw [if_neg]; · rfl
      · rw [List.isEmpty_iff]; exact hel
    rw [hf]
    have hhead : (elig (c :: cs)).head? = some c := by unfold elig; rw [List.takeWhile_cons_of_pos hce]; rfl
    refine ⟨trie_iff.mpr ⟨?_, ?_, ?_⟩, ?_, ?_, ?_⟩
    · intro e he
      rcases List.mem_append.mp he with he | he
      · exact hlab e he
      · rw [List.mem_singleton.mp he]; exact ⟨hel, takeWhile_all _ _⟩
    · rw [List.pairwise_append]
      refine ⟨hdist, by simp, ?_⟩
      intro a ha b hb x hx hy
      rw [List.mem_singleton.mp hb] at hy
      simp only at hy
      rw [hhead] at hy
      cases hy
      by_contra hcf
      exact hc (by simpa using hcf) a ha hx
    · intro e he
      rcases List.mem_append.mp he with he | he
      · exact hsub e he
      · rw [List.mem_singleton.mp he]; exact trie_iff.mpr ⟨by simp, by simp, by simp⟩
    · intro v l h
      obtain ⟨e, he, hg, h⟩ := at_iff.mp h
      exact ⟨l, at_iff.mpr ⟨e, by simp [he], hg, h⟩⟩
    · intro _
      exact ⟨_, at_iff.mpr ⟨(elig (c :: cs), .node [⟨t, i, 1⟩] []), by simp, by simp, .inl ⟨rfl, rfl⟩⟩⟩
    · intro v l h
      obtain ⟨e, he, hg, h⟩ := at_iff.mp h
      rcases List.mem_append.mp he with he | he
      · left
        have : At true (.node ls es) v l := at_iff.mpr ⟨e, he, hg, h⟩
        exact ⟨l, this, Grow.refl _, fun hp => absurd hp (hold v l this)⟩
      · right; left
        rw [List.mem_singleton.mp he] at h hg
        rcases h with ⟨rfl, rfl⟩ | ⟨v', rfl, h'⟩
        · refine ⟨rfl, ⟨⟨t, i, 1⟩, by simp [SeqTree.locations], rfl⟩, ?_⟩
          intro y l hy hpre
          obtain ⟨e', he', -, hy⟩ := at_iff.mp hy
          have hey : e'.1 <+: y := by rcases hy with ⟨rfl, -⟩ | ⟨v', rfl, -⟩ <;> simp
          obtain ⟨r, hr⟩ := hpre
          have hyc : ∃ ys, y = c :: ys := by
            obtain ⟨u, us, hu⟩ := List.exists_cons_of_ne_nil hel
            rw [hu] at hhead hr
            simp only [List.head?_cons, Option.some.injEq] at hhead
            exact ⟨us ++ r, by rw [← hr, hhead]; rfl⟩
          obtain ⟨ys, hys⟩ := hyc
          exact hc (hg rfl c hhead) e' he' (head_of_prefix hey (hlab e' he').1 hys)
        · exact absurd h' at_nil_edges

theorem added_nil {ls locs : List Location} {es : List (List PCmd × SeqTree)} {t i : Nat} (ht : Trie (.node ls es)) : Added (.node ls es) (.node locs es) [] t i :=
  ⟨trie_iff.mpr (trie_iff.mp ht), fun _ l h => ⟨l, at_locs h⟩, fun h => absurd rfl h,
    fun _ l h => .inl ⟨l, at_locs h, Grow.refl _, fun hp => absurd (List.prefix_nil.mp hp) (At.ne (at_locs (ls' := ls) h) ht)⟩⟩

theorem canBeLast_of_eligible {c : PCmd} (h : c.callLoopEligible = true) : c.canBeLast = true := by
  unfold PCmd.callLoopEligible at h
  unfold PCmd.canBeLast
  split <;> simp_all

theorem prefixLen_pos {c : PCmd} {cs ecmds : List PCmd} (hc : c.callLoopEligible = true) (h : ecmds.head? = some c) : 1 ≤ prefixLen (c :: cs) ecmds := by
  cases ecmds with
  | nil => simp at h
  | cons x xs =>
    simp only [List.head?_cons, Option.some.injEq] at h
    subst h
    unfold prefixLen
    have hs : sharedLen (x :: cs) (x :: xs) = sharedLen cs xs + 1 := by rw [sharedLen, if_pos rfl]
    rw [hs]
    generalize sharedLen cs xs = n
    induction n with
    | zero =>
      rw [trimShared, if_neg]
      rintro ⟨-, h⟩
      simp [canBeLast_of_eligible hc] at h
    | succ n ih =>
      rw [trimShared]
      split_ifs
      · exact ih
      · omega

/-- Replacing the edge with the right first command. -/
theorem added_edge {ls locs : List Location} {es : List (List PCmd × SeqTree)} {k : Nat} {P R cmds' : List PCmd} {target T0 T' : SeqTree} {c : PCmd} {t i : Nat}
    (ht : Trie (.node ls es)) (hk : es[k]? = some (P ++ R, target)) (hP : P.head? = some c) (hc : c.canBeFirst = true)
    (h0 : ∀ y l, y ≠ [] → At false (.node ls es) (P ++ y) l → At false T0 y l) (h0' : ∀ v l, At true T0 v l → At true (.node ls es) (P ++ v) l)
    (ih : Added T0 T' cmds' t i)
    (hn : (∃ l, At true (.node ls es) P l ∧ Grow l T'.locations ∧ Touch l T'.locations t i) ∨
      (∃ l, At true (.node ls es) (P ++ R) l ∧ TrackGrow l T'.locations ∧ Touch l T'.locations t i)) :
    Added (.node ls es) (.node locs (es.set k (P, T'))) (P ++ cmds') t i := by
  obtain ⟨hlab, hdist, hsub⟩ := trie_iff.mp ht
  have hkl : k < es.length := by
    by_contra h
    rw [List.getElem?_eq_none (by omega)] at hk
    cases hk
  have hke : es[k] = (P ++ R, target) := by rw [List.getElem?_eq_getElem hkl] at hk; exact Option.some.inj hk
  have hkm : (P ++ R, target) ∈ es := hke ▸ List.getElem_mem hkl
  have hPne : P ≠ [] := by rintro rfl; simp at hP
  have hPel : ∀ x ∈ P, x.callLoopEligible = true := fun x hx => (hlab _ hkm).2 x (by simp [hx])
  have hPR : (P ++ R).head? = some c := by rw [List.head?_append, hP]; rfl
  have hel := elig_append (b := cmds') hPel
  -- edges before and after
  have hmem : ∀ e ∈ es.set k (P, T'), e = (P, T') ∨ ∃ (j : Nat) (hj : j < es.length), j ≠ k ∧ e = es[j] := by
    intro e he
    obtain ⟨j, hj, rfl⟩ := List.getElem_of_mem he
    rw [List.getElem_set]
    split_ifs with h
    · exact .inl rfl
    · exact .inr ⟨j, by simpa using hj, Ne.symm h, rfl⟩
  have hother : ∀ (j : Nat) (hj : j < es.length), j ≠ k → es[j] ∈ es.set k (P, T') := by
    intro j hj hne
    refine List.mem_iff_getElem.mpr ⟨j, by simpa using hj, ?_⟩
    rw [List.getElem_set, if_neg (Ne.symm hne)]
  have hnew : (P, T') ∈ es.set k (P, T') := List.mem_iff_getElem.mpr ⟨k, by simpa using hkl, by simp⟩
  have hdiff : ∀ (j : Nat) (hj : j < es.length), j ≠ k → es[j].1.head? ≠ some c := by
    intro j hj hne hh
    have hd := List.pairwise_iff_getElem.mp hdist
    rcases Nat.lt_or_gt_of_ne hne with h | h
    · have := hd j k hj hkl h c hh (by rw [hke]; exact hPR)
      rw [this] at hc; cases hc
    · have := hd k j hkl hj h c (by rw [hke]; exact hPR) hh
      rw [this] at hc; cases hc
  -- a way that begins with the edge's command goes through the edge
  have hthru : ∀ {g : Bool} {y l}, At g (.node ls es) y l → y.head? = some c → P ++ R <+: y := by
    intro g y l hy hh
    obtain ⟨e, he, -, hy⟩ := at_iff.mp hy
    have hey : e.1 <+: y := by rcases hy with ⟨rfl, -⟩ | ⟨v', rfl, -⟩ <;> simp
    obtain ⟨j, hj, rfl⟩ := List.getElem_of_mem he
    by_cases hjk : j = k
    · subst hjk; rw [hke] at hey; exact hey
    · obtain ⟨u, us, rfl⟩ : ∃ u us, y = u :: us := by cases y with | nil => cases hh | cons u us => exact ⟨u, us, rfl⟩
      simp only [List.head?_cons, Option.some.injEq] at hh
      subst hh
      exact absurd (head_of_prefix hey (hlab _ he).1 rfl) (hdiff j hj hjk)
  have hheadP : ∀ {v z : List PCmd}, P ++ v <+: z → z.head? = some c := by
    intro _ z ⟨r, hr⟩
    rw [← hr, List.append_assoc, List.head?_append, hP]; rfl
  have hgP : ∀ x, P.head? = some x → x.canBeFirst = true := fun x hx => by rw [hP] at hx; cases hx; exact hc
  refine ⟨trie_iff.mpr ⟨?_, ?_, ?_⟩, ?_, ?_, ?_⟩
  · intro e he
    rcases hmem e he with rfl | ⟨j, hj, -, rfl⟩
    · exact ⟨hPne, hPel⟩
    · exact hlab _ (List.getElem_mem hj)
  · rw [List.pairwise_iff_getElem]
    intro a b ha hb hab x hx hy
    have ha' : a < es.length := by simpa using ha
    have hb' : b < es.length := by simpa using hb
    rw [List.getElem_set] at hx hy
    have hd := List.pairwise_iff_getElem.mp hdist a b ha' hb' hab x
    split_ifs at hx hy with h1 h2 h2
    · omega
    · subst h1
      refine hd ?_ hy
      rw [hke]; simp only at hx ⊢; rw [List.head?_append, hx]; rfl
    · subst h2
      refine hd hx ?_
      rw [hke]; simp only at hy ⊢; rw [List.head?_append, hy]; rfl
    · exact hd hx hy
  · intro e he
    rcases hmem e he with rfl | ⟨j, hj, -, rfl⟩
    · exact ih.trie
    · exact hsub _ (List.getElem_mem hj)
  · intro v l h
    obtain ⟨e, he, -, hv⟩ := at_iff.mp h
    obtain ⟨j, hj, rfl⟩ := List.getElem_of_mem he
    by_cases hjk : j = k
    · subst hjk
      have hPv : P <+: v := by
        rw [hke] at hv
        rcases hv with ⟨rfl, -⟩ | ⟨v', rfl, -⟩
        · simp
        · simp only [List.append_assoc]; exact List.prefix_append _ _
      obtain ⟨y, rfl⟩ := hPv
      by_cases hy : y = []
      · subst hy
        rw [List.append_nil]
        exact ⟨_, .here hnew (by simp)⟩
      · obtain ⟨l', h'⟩ := ih.keep y l (h0 y l hy h)
        exact ⟨l', .there hnew (by simp) h'⟩
    · exact ⟨l, at_iff.mpr ⟨_, hother j hj hjk, by simp, hv⟩⟩
  · intro _
    rw [hel]
    by_cases hy : elig cmds' = []
    · rw [hy, List.append_nil]
      exact ⟨_, .here hnew (by simp)⟩
    · obtain ⟨l', h'⟩ := ih.full hy
      exact ⟨l', .there hnew (by simp) h'⟩
  · intro v l' h
    rw [hel]
    obtain ⟨e, he, hg, hv⟩ := at_iff.mp h
    rcases hmem e he with rfl | ⟨j, hj, hjk, rfl⟩
    · rcases hv with ⟨hv1, rfl⟩ | ⟨v', rfl, hv⟩
      · simp only at hv1
        subst v
        rcases hn with ⟨l, h1, h2, h3⟩ | ⟨l, h1, h2, h3⟩
        · exact .inl ⟨l, h1, h2, fun _ => h3⟩
        · refine .inr (.inr ⟨List.prefix_append _ _, P ++ R, l, h1, h2, h3, ?_⟩)
          intro z lz hz hpz
          exact hthru hz (hheadP (v := []) (by simpa using hpz))
      · have hv'ne : v' ≠ [] := hv.ne ih.trie
        rcases ih.node v' l' hv with ⟨l, h1, h2, h3⟩ | ⟨rfl, h2, h3⟩ | ⟨h1, y, l, h2, h3, h4, h5⟩
        · refine .inl ⟨l, h0' _ _ h1, h2, fun hp => h3 ?_⟩
          exact (List.prefix_append_right_inj _).1 hp
        · refine .inr (.inl ⟨rfl, h2, ?_⟩)
          intro y l hy hpre
          obtain ⟨r, rfl⟩ := (List.prefix_append P _).trans hpre
          have hpr := (List.prefix_append_right_inj _).1 hpre
          have hr : r ≠ [] := by rintro rfl; exact hv'ne (List.prefix_nil.mp hpr)
          exact h3 r l (h0 r l hr hy) hpr
        · refine .inr (.inr ⟨(List.prefix_append_right_inj _).2 h1, P ++ y, l, h0' _ _ h2, h3, h4, ?_⟩)
          intro z lz hz hpre
          obtain ⟨r, rfl⟩ := (List.prefix_append P _).trans hpre
          have hpr := (List.prefix_append_right_inj _).1 hpre
          have hr : r ≠ [] := by rintro rfl; exact hv'ne (List.prefix_nil.mp hpr)
          exact (List.prefix_append_right_inj _).2 (h5 r lz (h0 r lz hr hz) hpr)
    · have hold : At true (.node ls es) v l' := at_iff.mpr ⟨_, List.getElem_mem hj, hg, hv⟩
      refine .inl ⟨l', hold, Grow.refl _, fun hp => absurd ?_ (hdiff j hj hjk)⟩
      have hev : es[j].1 <+: v := by
        rcases hv with ⟨rfl, -⟩ | ⟨v', rfl, -⟩ <;> simp
      obtain ⟨p0, ps, hp0⟩ := List.exists_cons_of_ne_nil hPne
      rw [hp0] at hP hp
      simp only [List.head?_cons, Option.some.injEq] at hP
      subst hP
      exact head_of_prefix (hev.trans hp) (hlab _ (List.getElem_mem hj)).1 rfl

theorem addCommands_added (t i : Nat) : ∀ (n : Nat) (cmds : List PCmd) (tree tree' : SeqTree) (L : Nat), cmds.length ≤ n → Trie tree →
    addCommands tree cmds t i L = .ok tree' → Added tree tree' cmds t i := by
  intro n
  induction n with
  | zero =>
    intro cmds tree tree' L hn ht h
    obtain rfl : cmds = [] := List.length_eq_zero_iff.mp (by omega)
    rw [addCommands_unfold, res_bind] at h
    obtain ⟨locs, -, h2⟩ := h
    simp only [res_pure] at h2
    subst h2
    obtain ⟨ls, es⟩ := tree
    exact added_nil ht
  | succ n ih =>
    intro cmds tree tree' L hn ht h
    rw [addCommands_unfold, res_bind] at h
    obtain ⟨locs, -, h2⟩ := h
    obtain ⟨ls, es⟩ := tree
    have hes : (SeqTree.node ls es).edges = es := rfl
    simp only [hes] at h2
    cases cmds with
    | nil => simp only [res_pure] at h2; subst h2; exact added_nil ht
    | cons c cs =>
      simp only at h2
      cases hf : findEdge c es with
      | none =>
        simp only [hf, res_pure] at h2
        subst h2
        exact added_fresh ht fun _ => findEdge_none hf
      | some k =>
        simp only [hf] at h2
        have hkl : k < es.length := by
          unfold findEdge at hf
          rw [List.findIdx?_eq_some_iff_getElem] at hf
          exact hf.1
        have hk : es[k]? = some es[k] := List.getElem?_eq_getElem hkl
        have hm : es[k] ∈ es := List.getElem_mem hkl
        rw [hk] at h2
        obtain ⟨⟨ecmds, target⟩, hek⟩ : ∃ e, es[k] = e := ⟨_, rfl⟩
        rw [hek] at h2 hk hm
        simp only at h2
        have hhead := findEdge_spec c es k (ecmds, target) hf hk
        simp only at hhead
        obtain ⟨hlab, -, hsub⟩ := trie_iff.mp ht
        have hce : c.callLoopEligible = true := by
          have := (hlab _ hm).2
          refine this c ?_
          simp only
          exact List.mem_of_mem_head? hhead
        have hpos := prefixLen_pos (cs := cs) hce hhead
        obtain ⟨hl1, hl2, hl3⟩ := prefixLen_spec (c :: cs) ecmds
        generalize hN : prefixLen (c :: cs) ecmds = N at h2 hpos hl1 hl2 hl3
        by_cases hcf : c.canBeFirst = true
        · rw [if_pos ⟨by omega, hcf⟩] at h2
          have hcmds : c :: cs = ecmds.take N ++ (c :: cs).drop N := by rw [← hl3, List.take_append_drop]
          have hlen : ((c :: cs).drop N).length ≤ n := by rw [List.length_drop]; omega
          have hPh : (ecmds.take N).head? = some c := by
            rw [← hl3]
            obtain ⟨N', rfl⟩ : ∃ N', N = N' + 1 := ⟨N - 1, by omega⟩
            rfl
          have hg : true = true → ∀ x, ecmds.head? = some x → x.canBeFirst = true := fun _ x hx => by rw [hhead] at hx; cases hx; exact hcf
          have hthru : ∀ y l, y.head? = some c → At false (.node ls es) y l → (y = ecmds ∧ l = target.locations) ∨ ∃ v', y = ecmds ++ v' ∧ At false target v' l := by
            intro y l hh hy
            obtain ⟨e, he, -, hy⟩ := at_iff.mp hy
            have hey : e.1 <+: y := by rcases hy with ⟨rfl, -⟩ | ⟨v', rfl, -⟩ <;> simp
            obtain ⟨u, us, rfl⟩ : ∃ u us, y = u :: us := by cases y with | nil => cases hh | cons u us => exact ⟨u, us, rfl⟩
            simp only [List.head?_cons, Option.some.injEq] at hh
            subst hh
            have := ht.same_edge he hm (head_of_prefix hey (hlab _ he).1 rfl) hhead hcf
            subst this
            exact hy
          have hPy : ∀ y, (ecmds.take N ++ y).head? = some c := fun y => by rw [List.head?_append, hPh]; rfl
          by_cases hfull : N = ecmds.length
          · -- the whole edge
            rw [if_pos hfull] at h2
            simp only [res_bind, res_pure] at h2
            obtain ⟨tl, h3, T', h4, rfl⟩ := h2
            have htake : ecmds.take N = ecmds := List.take_of_length_le (by omega)
            rw [htake] at hcmds hPh hPy
            have htl : Trie (.node tl target.edges) := by
              obtain ⟨tls, tes⟩ := target
              exact trie_iff.mpr (trie_iff.mp (hsub _ hm))
            have hadd : Added (.node tl target.edges) T' ((c :: cs).drop N) t i ∧ Grow tl T'.locations := by
              split_ifs at h4 with hlt
              · refine ⟨ih _ _ _ _ hlen htl h4, ?_⟩
                have := addCommands_locations h4
                rw [if_pos (by omega)] at this
                exact addLocation_grow this
              · have hd : (c :: cs).drop N = [] := List.drop_eq_nil_of_le (by omega)
                rw [hd]
                simp only [res_pure] at h4
                subst h4
                exact ⟨added_nil htl, Grow.refl _⟩
            rw [hcmds]
            refine added_edge (R := []) (T0 := .node tl target.edges) ht (by rw [List.append_nil]; exact hk) hPh hcf ?_ ?_ hadd.1 (.inl ⟨target.locations, ?_, ?_, ?_⟩)
            · intro y l hy h
              rcases hthru _ _ (hPy y) h with ⟨he, -⟩ | ⟨v', he, h'⟩
              · exact absurd (List.append_right_eq_self.mp he) hy
              · rw [List.append_cancel_left he]
                obtain ⟨tls, tes⟩ := target
                exact at_locs h'
            · intro v l h
              refine .there hm hg ?_
              obtain ⟨tls, tes⟩ := target
              exact at_locs h
            · exact .here hm hg
            · exact (addLocation_grow h3).trans hadd.2
            · exact (addLocation_touch h3).grow hadd.2
          · -- part of the edge
            rw [if_neg hfull] at h2
            simp only [res_bind, res_pure] at h2
            obtain ⟨nl, h3, T', h4, rfl⟩ := h2
            have hR : ecmds.drop N ≠ [] := by rw [Ne, List.drop_eq_nil_iff]; omega
            have hPR : ecmds.take N ++ ecmds.drop N = ecmds := List.take_append_drop _ _
            have ht0 : Trie (.node nl [(ecmds.drop N, target)]) := by
              refine trie_iff.mpr ⟨?_, by simp, ?_⟩
              · intro e he
                rw [List.mem_singleton.mp he]
                exact ⟨hR, fun x hx => (hlab _ hm).2 x (List.mem_of_mem_drop hx)⟩
              · intro e he
                rw [List.mem_singleton.mp he]
                exact hsub (ecmds, target) hm
            obtain ⟨r1, r2, -, r4⟩ := readd_facts _ _ _ _ h3
            have hloc := addCommands_locations h4
            rw [if_pos (by omega)] at hloc
            rw [hl3]
            rw [hcmds]
            refine added_edge (R := ecmds.drop N) (T0 := .node nl [(ecmds.drop N, target)]) ht (by rw [hPR]; exact hk) hPh hcf ?_ ?_ (ih _ _ _ _ hlen ht0 h4)
              (.inr ⟨target.locations, ?_, ?_, ?_⟩)
            · intro y l hy h
              rcases hthru _ _ (hPy y) h with ⟨he, rfl⟩ | ⟨v', he, h'⟩
              · have : y = ecmds.drop N := List.append_cancel_left (as := ecmds.take N) (by rw [hPR]; exact he)
                rw [this]
                exact at_iff.mpr ⟨_, List.mem_singleton.mpr rfl, by simp, .inl ⟨rfl, rfl⟩⟩
              · have : y = ecmds.drop N ++ v' := List.append_cancel_left (as := ecmds.take N) (by rw [← List.append_assoc, hPR]; exact he)
                rw [this]
                exact at_iff.mpr ⟨_, List.mem_singleton.mpr rfl, by simp, .inr ⟨_, rfl, h'⟩⟩
            · intro v l h
              obtain ⟨e, he, -, hv⟩ := at_iff.mp h
              rw [List.mem_singleton.mp he] at hv
              rcases hv with ⟨rfl, rfl⟩ | ⟨v', rfl, hv⟩
              · simp only
                rw [hPR]
                exact .here hm hg
              · simp only
                rw [← List.append_assoc, hPR]
                exact .there hm hg hv
            · rw [hPR]; exact .here hm hg
            · exact r4.trans (addLocation_grow hloc).1
            · obtain ⟨t1, t2⟩ := addLocation_touch hloc
              refine ⟨t1, fun hne hp => t2 ?_ ?_⟩
              · obtain ⟨a, as, ha⟩ := List.exists_cons_of_ne_nil hne
                obtain ⟨b, hb, -⟩ := r4 a (by rw [ha]; simp)
                rintro rfl
                simp at hb
              · intro a ha
                simp only [SeqTree.locations] at ha
                refine ⟨?_, r1 (by simp) a ha⟩
                rcases r2 a ha with ⟨b, hb, -⟩ | ⟨b, hb, e⟩
                · simp at hb
                · rw [← e]; exact (hp b hb).1
        · rw [if_neg (fun h => hcf h.2)] at h2
          simp only [res_pure] at h2
          subst h2
          exact added_fresh ht fun h => absurd h hcf

/-! ### The whole tree -/

/-- Place `(a, b)` comes before place `(t, i)`. -/
def Before (a b t i : Nat) : Prop := a < t ∨ (a = t ∧ b < i)

/-- What the tree knows when the suffixes of all places before `(t, i)` have been added. -/
structure Inv (T : List (List PCmd)) (t i : Nat) (tree : SeqTree) : Prop where
  trie : Trie tree
  ok : TreeOk T t i [] tree
  lt : ∀ v l, At false tree v l → ∀ x ∈ l, Before x.trackIdx x.cmdIdx t i
  reach : ∀ (a b : Nat) (tr : List PCmd), T[a]? = some tr → Before a b t i → elig (tr.drop b) ≠ [] → ∃ l, At false tree (elig (tr.drop b)) l
  one : ∀ v l, At true tree v l → ∀ (a b : Nat) (tr : List PCmd), T[a]? = some tr → Before a b t i → v <+: elig (tr.drop b) → ∃ x ∈ l, x.trackIdx = a
  two : ∀ v l, At true tree v l → ∀ (a b : Nat) (tr : List PCmd) (a' b' : Nat) (tr' : List PCmd), T[a]? = some tr → Before a b t i → v <+: elig (tr.drop b) →
    T[a']? = some tr' → Before a' b' t i → v <+: elig (tr'.drop b') → (a, b) ≠ (a', b') → Good l

theorem Inv.start (T : List (List PCmd)) : Inv T 0 0 (.node [] []) where
  trie := trie_iff.mpr ⟨by simp, by simp, by simp⟩
  ok := by intro p hp; rw [mem_paths] at hp; simp at hp
  lt := fun _ _ h => absurd h at_nil_edges
  reach := fun a b tr _ h => by unfold Before at h; omega
  one := fun _ _ h => absurd h at_nil_edges
  two := fun _ _ h => absurd h at_nil_edges

theorem Inv.next_track {T : List (List PCmd)} {t i : Nat} {tree : SeqTree} (h : Inv T t i tree) (hi : ∀ tr, T[t]? = some tr → tr.length ≤ i) : Inv T (t + 1) 0 tree := by
  have hb : ∀ {a b : Nat} {tr : List PCmd}, T[a]? = some tr → Before a b (t + 1) 0 → elig (tr.drop b) ≠ [] → Before a b t i := by
    intro a b tr ha hb hne
    unfold Before at *
    by_cases hat : a = t
    · subst hat
      refine .inr ⟨rfl, ?_⟩
      have hl := hi tr ha
      by_contra hbi
      rw [List.drop_eq_nil_of_le (by omega)] at hne
      exact hne rfl
    · omega
  have hne : ∀ {v : List PCmd} {l : List Location} {w : List PCmd}, At true tree v l → v <+: w → w ≠ [] := by
    rintro v l _ hv hp rfl
    exact hv.ne h.trie (List.prefix_nil.mp hp)
  exact {
    trie := h.trie
    ok := h.ok.mono (.inl (by omega))
    lt := fun v l hv x hx => by have := h.lt v l hv x hx; unfold Before at *; omega
    reach := fun a b tr ha hbf hn => h.reach a b tr ha (hb ha hbf hn) hn
    one := fun v l hv a b tr ha hbf hp => h.one v l hv a b tr ha (hb ha hbf (hne hv hp)) hp
    two := fun v l hv a b tr a' b' tr' ha hbf hp ha' hbf' hp' hd =>
      h.two v l hv a b tr a' b' tr' ha (hb ha hbf (hne hv hp)) hp ha' (hb ha' hbf' (hne hv hp')) hp' hd }

theorem Inv.step {T : List (List PCmd)} {t i : Nat} {tree tree' : SeqTree} {tr : List PCmd} (h : Inv T t i tree) (ht : T[t]? = some tr)
    (he : addCommands tree (tr.drop i) t i 0 = .ok tree') : Inv T t (i + 1) tree' := by
  have hok := (addCommands_ok T t i tr ht _ (tr.drop i) [] tree tree' le_rfl rfl h.ok (fun h => absurd rfl h) he).1
  have had := addCommands_added t i _ _ _ _ _ le_rfl h.trie he
  have hcase : ∀ {a b : Nat}, Before a b t (i + 1) → Before a b t i ∨ (a = t ∧ b = i) := by
    intro a b hb; unfold Before at *; omega
  have hpos : ∀ {v l}, At true tree v l → ∀ x ∈ l, x.pos ≠ (t, i) ∧ 1 ≤ x.repeatCount.toNat := by
    intro v l hv x hx
    refine ⟨?_, ?_⟩
    · intro e
      have := h.lt v l hv.any x hx
      simp only [Location.pos, Prod.mk.injEq] at e
      unfold Before at this
      omega
    · have := at_paths v tree l [] hv.any
      exact (h.ok _ this).locs.once x hx
  have hreach : ∀ {v l' a b} {tra : List PCmd}, At true tree' v l' → T[a]? = some tra → Before a b t i → v <+: elig (tra.drop b) → ∃ l, At false tree (elig (tra.drop b)) l := by
    intro v l' a b tra hv ha hb hp
    refine h.reach a b tra ha hb ?_
    intro hn
    rw [hn] at hp
    exact hv.ne had.trie (List.prefix_nil.mp hp)
  refine ⟨had.trie, hok.mono (.inr ⟨rfl, by omega⟩), ?_, ?_, ?_, ?_⟩
  · intro v l hv x hx
    have := at_paths v tree' l [] hv
    have := (hok _ this).locs.upto x hx
    unfold Location.le at this
    unfold Before
    omega
  · intro a b tra ha hb hn
    rcases hcase hb with hb | ⟨rfl, rfl⟩
    · obtain ⟨l, hl⟩ := h.reach a b tra ha hb hn
      exact had.keep _ l hl
    · rw [ht] at ha; cases ha
      exact had.full hn
  · intro v l' hv a b tra ha hb hp
    rcases had.node v l' hv with ⟨l, h1, h2, h3⟩ | ⟨h1, h2, h3⟩ | ⟨h1, y, l, h2, h3, h4, h5⟩
    · rcases hcase hb with hb | ⟨rfl, rfl⟩
      · obtain ⟨x, hx, e⟩ := h.one v l h1 a b tra ha hb hp
        obtain ⟨x', hx', e'⟩ := h2.1 x hx
        exact ⟨x', hx', e'.trans e⟩
      · rw [ht] at ha; cases ha
        exact (h3 hp).1
    · rcases hcase hb with hb | ⟨rfl, rfl⟩
      · obtain ⟨l, hl⟩ := hreach hv ha hb hp
        exact absurd hp (h3 _ l hl)
      · exact h2
    · rcases hcase hb with hb | ⟨rfl, rfl⟩
      · obtain ⟨lz, hz⟩ := hreach hv ha hb hp
        obtain ⟨x, hx, e⟩ := h.one y l h2 a b tra ha hb (h5 _ lz hz hp)
        obtain ⟨x', hx', e'⟩ := h3 x hx
        exact ⟨x', hx', e'.trans e⟩
      · exact h4.1
  · intro v l' hv a b tra a' b' tra' ha hb hp ha' hb' hp' hd
    -- an earlier place with the same commands
    obtain ⟨a1, b1, tr1, ha1, hb1, hp1⟩ : ∃ a1 b1 tr1, T[a1]? = some tr1 ∧ Before a1 b1 t i ∧ v <+: elig (tr1.drop b1) := by
      rcases hcase hb with hb | ⟨rfl, rfl⟩
      · exact ⟨a, b, tra, ha, hb, hp⟩
      · rcases hcase hb' with hb' | ⟨rfl, rfl⟩
        · exact ⟨a', b', tra', ha', hb', hp'⟩
        · exact absurd rfl hd
    rcases had.node v l' hv with ⟨l, h1, h2, h3⟩ | ⟨h1, h2, h3⟩ | ⟨h1, y, l, h2, h3, h4, h5⟩
    · have hne : l ≠ [] := by
        obtain ⟨x, hx, -⟩ := h.one v l h1 a1 b1 tr1 ha1 hb1 hp1
        rintro rfl; simp at hx
      have touch : v <+: elig (tr.drop i) → Good l' := fun hpv => (h3 hpv).2 hne (hpos h1)
      rcases hcase hb with hb | ⟨rfl, rfl⟩
      · rcases hcase hb' with hb' | ⟨rfl, rfl⟩
        · exact h2.2 (h.two v l h1 a b tra a' b' tra' ha hb hp ha' hb' hp' hd)
        · rw [ht] at ha'; cases ha'
          exact touch hp'
      · rw [ht] at ha; cases ha
        exact touch hp
    · obtain ⟨l, hl⟩ := hreach hv ha1 hb1 hp1
      exact absurd hp1 (h3 _ l hl)
    · obtain ⟨lz, hz⟩ := hreach hv ha1 hb1 hp1
      obtain ⟨x, hx, -⟩ := h.one y l h2 a1 b1 tr1 ha1 hb1 (h5 _ lz hz hp1)
      exact h4.2 (by rintro rfl; simp at hx) (hpos h2)

theorem addTrack_inv {T : List (List PCmd)} {t : Nat} {tr : List PCmd} (ht : T[t]? = some tr) {tree tree' : SeqTree} (h : Inv T t 0 tree)
    (he : addTrack tree tr t = .ok tree') : Inv T t tr.length tree' := by
  have key : ∀ (n s : Nat) (tree : SeqTree), Inv T t s tree →
      (List.range' s n).foldlM (fun T i => addCommands T (tr.drop i) t i 0) tree = .ok tree' → Inv T t (s + n) tree' := by
    intro n
    induction n with
    | zero =>
      intro s tree h he
      simp only [List.range'_zero, List.foldlM_nil, res_pure] at he
      subst he; exact h
    | succ n ih =>
      intro s tree h he
      rw [List.range'_succ, List.foldlM_cons, res_bind] at he
      obtain ⟨T1, h1, h2⟩ := he
      have := ih (s + 1) T1 (h.step ht h1) h2
      rwa [show s + 1 + n = s + (n + 1) by omega] at this
  unfold addTrack at he
  rw [List.range_eq_range'] at he
  have := key tr.length 0 tree h he
  rwa [Nat.zero_add] at this

theorem buildTree_inv {tracks : List (List PCmd)} {top : Nat} {tree : SeqTree} (he : buildTree tracks top = .ok tree) :
    Inv (tracks.take top) (tracks.take top).length 0 tree := by
  unfold buildTree at he
  generalize tracks.take top = T at he ⊢
  have key : ∀ (l : List (List PCmd)) (k : Nat) (tree0 tree : SeqTree), (∀ j, l[j]? = T[k + j]?) → Inv T k 0 tree0 →
      (l.zipIdx k).foldlM (fun t x => addTrack t x.1 x.2) tree0 = .ok tree → Inv T (k + l.length) 0 tree := by
    intro l
    induction l with
    | nil =>
      intro k tree0 tree _ h he
      simp only [List.zipIdx_nil, List.foldlM_nil, res_pure] at he
      subst he; exact h
    | cons a l ih =>
      intro k tree0 tree hl h he
      rw [List.zipIdx_cons, List.foldlM_cons, res_bind] at he
      obtain ⟨T1, h1, h2⟩ := he
      have ha : T[k]? = some a := by rw [← Nat.add_zero k, ← hl 0]; rfl
      have := (addTrack_inv ha h h1).next_track (fun tr htr => by rw [ha] at htr; cases htr; exact le_rfl)
      have := ih (k + 1) T1 tree (fun j => by rw [show k + 1 + j = k + (j + 1) by omega, ← hl (j + 1)]; rfl) this h2
      rwa [show k + 1 + l.length = k + (l.length + 1) by omega] at this
  have := key T 0 _ tree (fun j => by rw [Nat.zero_add]) (Inv.start T) he
  rwa [Nat.zero_add] at this

/-! ### Consolidation -/

theorem consolidate_tracks (len : Nat) (ls : List Location) : ∀ (cur : Location) (out : List Location), consolidate.go len cur ls = .ok out →
    (∃ x rest, out = x :: rest ∧ x.trackIdx = cur.trackIdx ∧ cur.repeatCount.toNat ≤ x.repeatCount.toNat) ∧ TrackGrow ls out := by
  induction ls with
  | nil =>
    intro cur out h
    simp only [consolidate.go, res_ok] at h
    subst h
    exact ⟨⟨cur, [], rfl, rfl, le_rfl⟩, by simp [TrackGrow]⟩
  | cons l ls ih =>
    intro cur out h
    rw [consolidate.go] at h
    split_ifs at h with h1 h2
    · obtain ⟨⟨x, rest, rfl, e, hc⟩, ht⟩ := ih cur out h
      refine ⟨⟨x, rest, rfl, e, hc⟩, ?_⟩
      intro y hy
      rcases List.mem_cons.mp hy with rfl | hy
      · exact ⟨x, by simp, e.trans h1.1⟩
      · exact ht y hy
    · rw [res_bind] at h
      obtain ⟨k, hk, h⟩ := h
      have hk := addU8_toNat hk
      obtain ⟨⟨x, rest, rfl, e, hc⟩, ht⟩ := ih _ out h
      simp only at e hc
      refine ⟨⟨x, rest, rfl, e, by omega⟩, ?_⟩
      intro y hy
      rcases List.mem_cons.mp hy with rfl | hy
      · exact ⟨x, by simp, e.trans h2.1⟩
      · exact ht y hy
    · simp only [res_bind, res_pure] at h
      obtain ⟨rest, hr, rfl⟩ := h
      obtain ⟨⟨x, rest', rfl, e, hc⟩, ht⟩ := ih l rest hr
      refine ⟨⟨cur, _, rfl, rfl, le_rfl⟩, ?_⟩
      intro y hy
      rcases List.mem_cons.mp hy with rfl | hy
      · exact ⟨x, by simp, e⟩
      · obtain ⟨z, hz, e'⟩ := ht y hy
        exact ⟨z, by simp only [List.mem_cons] at hz ⊢; exact .inr hz, e'⟩

/-- Places that do not overlap survive. -/
theorem consolidate_two (len : Nat) (ls : List Location) : ∀ (cur : Location) (out : List Location), consolidate.go len cur ls = .ok out →
    (∀ a ∈ cur :: ls, 1 ≤ a.repeatCount.toNat) → (cur :: ls).Pairwise (fun a b => a.le b.trackIdx b.cmdIdx) →
    (∀ a ∈ cur :: ls, ∀ b ∈ cur :: ls, a.trackIdx = b.trackIdx → a.cmdIdx < b.cmdIdx → a.cmdIdx + len ≤ b.cmdIdx) →
    (2 ≤ cur.repeatCount.toNat ∨ ∃ b ∈ ls, b.pos ≠ cur.pos) → 2 ≤ (out.map fun l => l.repeatCount.toNat).sum := by
  have big : ∀ {cur : Location} {ls out : List Location}, consolidate.go len cur ls = .ok out → 2 ≤ cur.repeatCount.toNat → 2 ≤ (out.map fun l => l.repeatCount.toNat).sum := by
    intro cur ls out h h2
    obtain ⟨⟨x, rest, rfl, -, hc⟩, -⟩ := consolidate_tracks len ls cur out h
    simp only [List.map_cons, List.sum_cons]
    omega
  induction ls with
  | nil =>
    intro cur out h _ _ _ hg
    rcases hg with hg | ⟨b, hb, -⟩
    · exact big h hg
    · simp at hb
  | cons l ls ih =>
    intro cur out h h1 hs ho hg
    by_cases hc2 : 2 ≤ cur.repeatCount.toNat
    · exact big h hc2
    have hc1 : cur.repeatCount.toNat = 1 := by have := h1 cur (by simp); omega
    replace hg : ∃ b ∈ l :: ls, b.pos ≠ cur.pos := by rcases hg with hg | hg; · exact absurd hg hc2
                                                      · exact hg
    rw [consolidate.go, hc1, Nat.mul_one] at h
    have hle : cur.le l.trackIdx l.cmdIdx := by
      rw [List.pairwise_cons] at hs
      exact hs.1 l (by simp)
    unfold Location.le at hle
    split_ifs at h with k1 k2
    · -- the same place again
      have hsame : l.pos = cur.pos := by
        by_contra hne
        have : cur.cmdIdx < l.cmdIdx := by
          rcases hle with hle | ⟨-, hle⟩
          · omega
          · rcases Nat.lt_or_eq_of_le hle with h | h
            · exact h
            · exact absurd (by simp [Location.pos, k1.1, h]) hne
        have := ho cur (by simp) l (by simp) k1.1 this
        omega
      refine ih cur out h (fun a ha => h1 a ?_) ?_ ?_ (.inr ?_)
      · simp only [List.mem_cons] at ha ⊢; tauto
      · rw [List.pairwise_cons, List.pairwise_cons] at hs
        exact List.pairwise_cons.mpr ⟨fun x hx => hs.1 x (by simp [hx]), hs.2.2⟩
      · intro a ha b hb
        exact ho a (by simp only [List.mem_cons] at ha ⊢; tauto) b (by simp only [List.mem_cons] at hb ⊢; tauto)
      · obtain ⟨b, hb, hne⟩ := hg
        rcases List.mem_cons.mp hb with rfl | hb
        · exact absurd hsame hne
        · exact ⟨b, hb, hne⟩
    · rw [res_bind] at h
      obtain ⟨k, hk, h⟩ := h
      have hk := addU8_toNat hk
      refine big h ?_
      simp only
      rw [show (1 : UInt8).toNat = 1 from rfl] at hk
      omega
    · simp only [res_bind, res_pure] at h
      obtain ⟨rest, hr, rfl⟩ := h
      obtain ⟨⟨x, rest', rfl, e, hc⟩, -⟩ := consolidate_tracks len ls l rest hr
      have := h1 l (by simp)
      simp only [List.map_cons, List.sum_cons]
      omega

theorem mapM_mem_rev {α β : Type} (f : α → Res β) (l : List α) : ∀ out, l.mapM f = .ok out → ∀ a ∈ l, ∃ b ∈ out, f a = .ok b := by
  induction l with
  | nil => intro out _ a ha; simp at ha
  | cons x l ih =>
    intro out h a ha
    simp only [List.mapM_cons, res_bind, res_pure] at h
    obtain ⟨b0, h0, bs, h1, rfl⟩ := h
    rcases List.mem_cons.1 ha with rfl | ha
    · exact ⟨b0, by simp, h0⟩
    · obtain ⟨b, hb, hf⟩ := ih bs h1 a ha
      exact ⟨b, by simp [hb], hf⟩

/-- When nothing is worth extracting, the locations of every long node consolidate to one place. -/
theorem none_left {tree : SeqTree} (h : bestSequence tree = .ok none) {v : List PCmd} {l : List Location} (hv : At false tree v l) (h4 : 4 ≤ v.length) :
    ∃ out, consolidate l v.length = .ok out ∧ (out.map fun l => l.repeatCount.toNat).sum < 2 := by
  unfold bestSequence at h
  simp only [res_bind, res_pure] at h
  obtain ⟨seqs, h1, best, h2, h3⟩ := h
  cases best with
  | some b => cases h3
  | none =>
    have hw := (bestOf_spec seqs _ h2).1 rfl
    unfold SeqTree.sequences at h1
    obtain ⟨s, hs, hf⟩ := mapM_mem_rev _ _ _ h1 _ (at_paths v tree l [] hv)
    simp only [List.nil_append, res_bind, res_pure] at hf
    obtain ⟨out, ho, rfl⟩ := hf
    refine ⟨out, ho, ?_⟩
    have := hw _ hs
    unfold Sequence.worthwhile at this
    rw [if_pos (by simp only [gt_iff_lt]; omega)] at this
    simp only [res_bind, res_pure, decide_eq_false_iff_not] at this
    obtain ⟨n, hn, hn1⟩ := this
    have hsum := sumRepeats_foldlM out 0 n hn
    rw [show (0 : UInt8).toNat = 0 from rfl] at hsum
    have : ¬ (1 < n.toNat) := fun h => hn1 (UInt8.lt_iff_toNat_lt.mpr h)
    omega

/-- The end of the optimisation. -/
theorem optimizeFuel_end (top fuel : Nat) : ∀ (tracks out : List (List PCmd)), optimizeFuel fuel tracks top = .ok out →
    ∃ tree, buildTree out top = .ok tree ∧ bestSequence tree = .ok none := by
  induction fuel with
  | zero => intro tracks out h; cases h
  | succ fuel ih =>
    intro tracks out h
    rcases optimizeFuel_succ fuel tracks out top h with ⟨rfl, h⟩ | ⟨s, tracks1, -, h⟩
    · exact h
    · exact ih tracks1 out h

theorem occurs_elig {T : List (List PCmd)} {w : List PCmd} {t i : Nat} (h : Occurs T w t i) (hw : ∀ c ∈ w, c.callLoopEligible = true) (hne : w ≠ []) :
    ∃ tr, T[t]? = some tr ∧ Before t i T.length 0 ∧ w <+: elig (tr.drop i) ∧ elig (tr.drop i) ≠ [] := by
  obtain ⟨tr, h1, r, hr⟩ := h
  have hp : w <+: elig (tr.drop i) := by rw [← hr, elig_append hw]; exact List.prefix_append _ _
  refine ⟨tr, h1, .inl ?_, hp, ?_⟩
  · by_contra hlt
    rw [List.getElem?_eq_none (by omega)] at h1
    cases h1
  · intro he
    rw [he] at hp
    exact hne (List.prefix_nil.mp hp)

/-- A sequence that occurs in two places has a node above both. -/
theorem node_of_two {T : List (List PCmd)} {tree : SeqTree} (hi : Inv T T.length 0 tree) {w : List PCmd} (hne : w ≠ []) (hw : ∀ c ∈ w, c.callLoopEligible = true ∧ c.canBeFirst = true)
    {t i t' i' : Nat} (h : Occurs T w t i) (h' : Occurs T w t' i') (hd : (t, i) ≠ (t', i')) :
    ∃ v l, At true tree v l ∧ w <+: v ∧ Good l ∧ (∃ x ∈ l, x.trackIdx = t) ∧ ∃ x ∈ l, x.trackIdx = t' := by
  obtain ⟨tr, h1, h2, h3, h4⟩ := occurs_elig h (fun c hc => (hw c hc).1) hne
  obtain ⟨tr', h1', h2', h3', h4'⟩ := occurs_elig h' (fun c hc => (hw c hc).1) hne
  obtain ⟨lp, hp⟩ := hi.reach t i tr h1 h2 h4
  obtain ⟨lq, hq⟩ := hi.reach t' i' tr' h1' h2' h4'
  obtain ⟨v, l, k1, k2, k3, k4⟩ := common_node _ w tree _ _ lp lq le_rfl hi.trie hne (fun c hc => (hw c hc).2) hp hq h3 h3'
  exact ⟨v, l, k1, k2, hi.two v l k1 t i tr t' i' tr' h1 h2 k3 h1' h2' k4 hd, hi.one v l k1 t i tr h1 h2 k3, hi.one v l k1 t' i' tr' h1' h2' k4⟩

theorem none_left_tracks {T : List (List PCmd)} {tree : SeqTree} (hi : Inv T T.length 0 tree) (hb : bestSequence tree = .ok none) {w : List PCmd} (h4 : 4 ≤ w.length)
    (hw : ∀ c ∈ w, c.callLoopEligible = true ∧ c.canBeFirst = true) {t i t' i' : Nat} (h : Occurs T w t i) (h' : Occurs T w t' i') : t = t' := by
  by_contra hne
  obtain ⟨v, l, k1, k2, -, ⟨x, hx, ex⟩, y, hy, ey⟩ := node_of_two hi (by rintro rfl; simp at h4) hw h h' (fun e => hne (congrArg Prod.fst e))
  have hvl := k2.length_le
  obtain ⟨out, ho, hs⟩ := none_left hb k1.any (by omega)
  have hok := consolidate_ok T _ _ v l out (hi.ok _ (at_paths v tree l [] k1.any)) ho
  have hone := hok.once
  simp only at hone
  cases l with
  | nil => simp at hx
  | cons a ls =>
    unfold consolidate at ho
    simp only at ho
    obtain ⟨⟨o, rest, rfl, e, -⟩, ht⟩ := consolidate_tracks _ _ _ _ ho
    have hmem : ∀ z ∈ a :: ls, ∃ q ∈ o :: rest, q.trackIdx = z.trackIdx := by
      intro z hz
      rcases List.mem_cons.mp hz with rfl | hz
      · exact ⟨o, by simp, e⟩
      · exact ht z hz
    obtain ⟨q, hq, eq⟩ := hmem x hx
    obtain ⟨r, hr, er⟩ := hmem y hy
    cases rest with
    | nil =>
      rw [List.mem_singleton] at hq hr
      subst hq; subst hr
      omega
    | cons o2 rest =>
      have h1 := hone o (by simp)
      have h2 := hone o2 (by simp)
      simp only [List.map_cons, List.sum_cons] at hs
      omega

theorem none_left_apart {T : List (List PCmd)} {tree : SeqTree} (hi : Inv T T.length 0 tree) (hb : bestSequence tree = .ok none)
    (hover : ∀ v, 4 ≤ v.length → (∀ c ∈ v, c.callLoopEligible = true) → ∀ t i j, i < j → j < i + v.length → ¬ (Occurs T v t i ∧ Occurs T v t j))
    {w : List PCmd} (h4 : 4 ≤ w.length) (hw : ∀ c ∈ w, c.callLoopEligible = true ∧ c.canBeFirst = true) {t i t' i' : Nat} (h : Occurs T w t i) (h' : Occurs T w t' i') :
    (t, i) = (t', i') := by
  by_contra hne
  obtain ⟨v, l, k1, k2, hg, -, -⟩ := node_of_two hi (by rintro rfl; simp at h4) hw h h' hne
  have hvl := k2.length_le
  obtain ⟨out, ho, hs⟩ := none_left hb k1.any (by omega)
  have hpath := hi.ok _ (at_paths v tree l [] k1.any)
  cases l with
  | nil => rcases hg with ⟨a, ha, -⟩ | ⟨a, r, ha, -⟩ <;> simp at ha
  | cons a ls =>
    unfold consolidate at ho
    simp only at ho
    have := consolidate_two v.length ls a out ho hpath.locs.once hpath.locs.sorted ?_ ?_
    · omega
    · intro x hx y hy e hlt
      by_contra hov
      exact hover v (by omega) hpath.eligible x.trackIdx x.cmdIdx y.cmdIdx hlt (by omega) ⟨hpath.locs.occurs x hx, by rw [e]; exact hpath.locs.occurs y hy⟩
    · rcases hg with ⟨x, hx, y, hy, e⟩ | ⟨x, r, hx, e⟩
      · right
        by_contra hall
        push Not at hall
        have hsame : ∀ z ∈ a :: ls, z.pos = a.pos := by
          intro z hz
          rcases List.mem_cons.mp hz with rfl | hz
          · rfl
          · exact hall z hz
        exact e ((hsame x hx).trans (hsame y hy).symm)
      · left
        cases hx
        exact e

end M2S
