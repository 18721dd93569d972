import Verif.Spec.Manifest
import Verif.Proofs.Res
import Verif.Proofs.F32
/-
Helper lemmas on manifests.
-/
namespace M2S
open ManifestSpec

theorem index_field {j v : Json} {key : String} (h : Field j key v) : j.index key = v := by
  obtain ⟨a, b, rfl, hb⟩ := h
  have hf : b.filter (fun p => decide (p.1 = key)) = [] := List.filter_eq_nil_iff.mpr fun p hp => by simpa using hb p hp
  simp only [Json.index, Json.fieldsNamed, List.filter_append, List.filter_cons, decide_true, if_true, hf, List.map_append, List.map_cons, List.map_nil]
  simp

theorem field_exists {key : String} {p : String × Json} (hk : p.1 = key) : ∀ {fs : List (String × Json)}, p ∈ fs → ∃ v, Field (.obj fs) key v := by
  intro fs
  induction fs generalizing p with
  | nil => intro hp; cases hp
  | cons x fs ih =>
    intro hp
    by_cases h : ∃ q ∈ fs, q.1 = key
    · obtain ⟨q, hq, hqk⟩ := h
      obtain ⟨v, a, b, e, hb⟩ := ih hqk hq
      cases e
      exact ⟨v, x :: a, b, rfl, hb⟩
    · rcases List.mem_cons.mp hp with rfl | hp
      · subst hk
        exact ⟨p.2, [], fs, rfl, fun q hq hqk => h ⟨q, hq, hqk⟩⟩
      · exact absurd ⟨p, hp, hk⟩ h

theorem index_cases (j : Json) (key : String) : Field j key (j.index key) ∨ (j.index key = .null ∧ ∀ v, ¬ Field j key v) := by
  by_cases h : ∃ v, Field j key v
  · obtain ⟨v, hv⟩ := h
    left
    rw [index_field hv]
    exact hv
  · right
    refine ⟨?_, fun v hv => h ⟨v, hv⟩⟩
    cases j with
    | obj fs =>
      have : fs.filter (fun p => decide (p.1 = key)) = [] :=
        List.filter_eq_nil_iff.mpr fun p hp => by
          simp only [decide_eq_true_eq]
          exact fun hk => h (field_exists hk hp)
      simp [Json.index, Json.fieldsNamed, this]
    | _ => rfl

/-! Reordering. -/

theorem filter_perm_nodup {fs gs : List (String × Json)} (h : fs.Perm gs) (hd : (fs.map (·.1)).Nodup) (key : String) :
    fs.filter (fun p => decide (p.1 = key)) = gs.filter (fun p => decide (p.1 = key)) := by
  have hp := h.filter (fun p => decide (p.1 = key))
  have hlen : (fs.filter (fun p => decide (p.1 = key))).length ≤ 1 := by
    clear h hp
    induction fs with
    | nil => simp
    | cons x fs ih =>
      rw [List.map_cons, List.nodup_cons] at hd
      rw [List.filter_cons]
      split_ifs with hx
      · have : fs.filter (fun p => decide (p.1 = key)) = [] :=
          List.filter_eq_nil_iff.mpr fun p hp => by
            simp only [decide_eq_true_eq] at hx ⊢
            intro hk
            exact hd.1 (List.mem_map.mpr ⟨p, hp, by rw [hk, hx]⟩)
        simp [this]
      · exact ih hd.2
  generalize fs.filter (fun p => decide (p.1 = key)) = l at hp hlen
  match l, hp, hlen with
  | [], hp, _ => exact (List.nil_perm.mp hp).symm
  | [x], hp, _ => exact List.singleton_perm.mp hp
  | x :: y :: l, _, hlen => simp at hlen

theorem reordered_index {a b : Json} (h : Reordered a b) (key : String) : Reordered (a.index key) (b.index key) := by
  induction h with
  | refl j => exact .refl _
  | trans _ _ ih1 ih2 => exact .trans ih1 ih2
  | keys h hd =>
    simp only [Json.index, Json.fieldsNamed, filter_perm_nodup h hd]
    exact .refl _
  | @inside before after k a b h _ =>
    simp only [Json.index, Json.fieldsNamed, List.filter_append, List.filter_cons]
    by_cases hk : k = key
    · subst hk
      simp only [decide_true, if_true, List.map_append, List.map_cons]
      generalize List.map (·.2) (after.filter (fun p => decide (p.1 = k))) = l
      cases l with
      | nil => simpa using h
      | cons x l =>
        simp only [List.getLast?_append, List.getLast?_cons_cons]
        rw [List.getLast?_eq_some_getLast (l := x :: l) (by simp)]
        exact .refl _
    · simp only [hk, decide_false, Bool.false_eq_true, if_false]
      exact .refl _

theorem reordered_asStr {a b : Json} (h : Reordered a b) : a.asStr = b.asStr := by
  induction h with
  | trans _ _ ih1 ih2 => rw [ih1, ih2]
  | _ => rfl

theorem reordered_asBool {a b : Json} (h : Reordered a b) : a.asBool = b.asBool := by
  induction h with
  | trans _ _ ih1 ih2 => rw [ih1, ih2]
  | _ => rfl

theorem reordered_asF64 {a b : Json} (h : Reordered a b) : a.asF64 = b.asF64 := by
  induction h with
  | trans _ _ ih1 ih2 => rw [ih1, ih2]
  | _ => rfl

theorem reordered_songDef {a b : Json} (h : Reordered a b) (base : String) : songDefNew a base = songDefNew b base := by
  unfold songDefNew
  rw [reordered_asStr (reordered_index h _), reordered_asBool (reordered_index h _), reordered_asF64 (reordered_index h _)]

theorem reordered_bank {a b : Json} (h : Reordered a b) (ns : List String) (base : String) : bankNew a ns base = bankNew b ns base := by
  unfold bankNew
  congr 1
  funext n
  exact reordered_songDef (reordered_index h n) base

/-! Paths. -/

theorem splitSlash_ne (cs : List Char) : splitSlash cs ≠ [] := by
  cases cs with
  | nil => simp [splitSlash]
  | cons c cs =>
    rw [splitSlash]
    split_ifs
    · simp
    · split <;> simp

theorem splitSlash_append (a b : List Char) : splitSlash (a ++ '/' :: b) = splitSlash a ++ splitSlash b := by
  induction a with
  | nil => simp [splitSlash]
  | cons c a ih =>
    rw [List.cons_append, splitSlash, splitSlash, ih]
    split_ifs
    · rfl
    · cases h : splitSlash a with
      | nil => exact absurd h (splitSlash_ne a)
      | cons p ps => rfl

theorem isAbsolute_iff (p : String) : isAbsolute p = true ↔ Rooted p := by
  unfold isAbsolute Rooted
  cases p.toList <;> simp

theorem joinPath_resolves (dir p : String) : Resolves dir p (if isAbsolute p then p else joinPath dir p) := by
  constructor
  · intro h
    rw [if_pos ((isAbsolute_iff p).mpr h)]
  · intro h
    have ha : ¬ isAbsolute p = true := fun h' => h ((isAbsolute_iff p).mp h')
    rw [if_neg ha]
    unfold joinPath
    rw [if_neg ha]
    split_ifs with h1 h2
    · subst h1
      refine ⟨rfl, ?_⟩
      constructor
      · exact fun h' => absurd h' h
      · rintro ⟨cs, hcs⟩
        have h0 : "".toList = [] := rfl
        rw [h0] at hcs
        cases hcs
    · have hd : dir.toList = dir.toList.dropLast ++ ['/'] := by
        conv_lhs => rw [← List.dropLast_append_getLast? _ h2]
      refine ⟨?_, ?_⟩
      · unfold names
        rw [String.toList_append, hd, List.append_assoc, List.singleton_append, splitSlash_append, splitSlash_append, List.filter_append, List.filter_append]
        simp [splitSlash]
      · unfold Rooted
        rw [String.toList_append]
        cases hl : dir.toList with
        | nil => rw [hl] at h2; cases h2
        | cons c cs => simp
    · refine ⟨?_, ?_⟩
      · unfold names
        rw [String.toList_append, String.toList_append, show "/".toList = ['/'] from rfl, List.append_assoc, List.singleton_append, splitSlash_append,
          List.filter_append]
      · unfold Rooted
        rw [String.toList_append, String.toList_append]
        cases hl : dir.toList with
        | nil => exact absurd (String.toList_inj.mp (by rw [hl]; rfl)) h1
        | cons c cs => simp

theorem rnd64_int (n : Int) (h : |n| < 2 ^ 53) : rnd64 n = n := by
  unfold rnd64
  simp only
  have he : max (Int.log 2 |(n : ℚ)|) (-1022) - 52 ≤ 0 := by
    have : Int.log 2 |(n : ℚ)| ≤ 52 := by
      by_contra hgt
      have hn : (0 : ℚ) < |(n : ℚ)| := by
        by_contra h0
        have : |(n : ℚ)| = 0 := le_antisymm (not_lt.mp h0) (abs_nonneg _)
        rw [this] at hgt
        simp at hgt
      have h2 := Int.zpow_log_le_self (b := 2) (r := |(n : ℚ)|) (by norm_num) hn
      have h3 : ((2 : ℕ) : ℚ) ^ (53 : ℤ) ≤ ((2 : ℕ) : ℚ) ^ (Int.log 2 |(n : ℚ)|) := zpow_le_zpow_right₀ (by norm_num) (by omega)
      have h4 : |(n : ℚ)| < 2 ^ 53 := by exact_mod_cast h
      have h5 : ((2 : ℕ) : ℚ) ^ (53 : ℤ) = 2 ^ 53 := by norm_num
      linarith
    omega
  generalize max (Int.log 2 |(n : ℚ)|) (-1022) - 52 = e at he
  obtain ⟨k, rfl⟩ : ∃ k : ℕ, e = -(k : ℤ) := ⟨(-e).toNat, by omega⟩
  have e1 : (n : ℚ) / 2 ^ (-(k : ℤ)) = ((n * 2 ^ k : ℤ) : ℚ) := by
    rw [zpow_neg, div_inv_eq_mul, zpow_natCast]; push_cast; rfl
  rw [e1, roundEven_int, zpow_neg, zpow_natCast]
  push_cast
  field_simp

theorem songDef_slot {j : Json} {dir : String} {d : SongDef String} (h : songDefNew j dir = .ok d) : Slot dir j d := by
  unfold songDefNew at h
  cases hs : (j.index "input").asStr with
  | none => rw [hs] at h; cases h
  | some p =>
    rw [hs] at h
    cases h
    constructor
    · refine ⟨p, _, ?_, rfl, joinPath_resolves dir p⟩
      have : j.index "input" = .str p := by
        cases hj : j.index "input" <;> rw [hj] at hs <;> cases hs
        rfl
      rcases index_cases j "input" with hf | ⟨hn, -⟩
      · rw [this] at hf; exact hf
      · rw [this] at hn; cases hn
    · intro x hx
      simp only [index_field hx, Json.asF64]
    · intro n hn hlt
      simp only [index_field hn, Json.asF64, rnd64_int n hlt]
    · intro h1 h2
      have : (j.index "tempoAdjust").asF64 = none := by
        rcases index_cases j "tempoAdjust" with hf | ⟨hn, -⟩
        · cases hj : j.index "tempoAdjust" with
          | float x => rw [hj] at hf; exact absurd hf (h1 x)
          | int n => rw [hj] at hf; exact absurd hf (h2 n)
          | _ => rfl
        · rw [hn]; rfl
      simp only [this]
      rfl
    · intro b hb
      simp only [index_field hb, Json.asBool]
      rfl
    · intro hb
      have : (j.index "loop").asBool = none := by
        rcases index_cases j "loop" with hf | ⟨hn, -⟩
        · cases hj : j.index "loop" with
          | bool b => rw [hj] at hf; exact absurd hf (hb b)
          | _ => rfl
        · rw [hn]; rfl
      simp only [this]
      rfl

theorem mapM_forall₂ {α β : Type} {f : α → Res β} : ∀ {l : List α} {m : List β}, l.mapM f = .ok m → List.Forall₂ (fun a b => f a = .ok b) l m := by
  intro l
  induction l with
  | nil => intro m h; rw [List.mapM_nil, res_pure] at h; subst h; exact .nil
  | cons a l ih =>
    intro m h
    rw [List.mapM_cons, res_bind] at h
    obtain ⟨b, hb, h⟩ := h
    rw [res_bind] at h
    obtain ⟨bs, hbs, h⟩ := h
    rw [res_pure] at h
    subst h
    exact .cons hb (ih hbs)

end M2S
