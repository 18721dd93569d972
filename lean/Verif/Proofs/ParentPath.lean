import Verif.Schema
import Mathlib.Data.List.TakeWhile
import Verif.Proofs.Manifest
/-
Lemmas: the directory of a file.
-/
namespace M2S
open ManifestSpec

theorem places_append (a b : List Char) : places (a ++ '/' :: b) = places a ++ places b := by
  unfold places
  rw [splitSlash_append, List.filter_append]

theorem places_nil : places [] = [] := by decide

theorem trim_places (r : List Char) : places (trimPath r).reverse = places r.reverse ∧ ((∃ cs, (trimPath r).reverse = '/' :: cs) ↔ ∃ cs, r.reverse = '/' :: cs) := by
  induction r using trimPath.induct with
  | case1 r ih =>
    rw [trimPath]
    refine ⟨ih.1.trans ?_, ih.2.trans ?_⟩
    · rw [List.reverse_cons, List.reverse_cons, List.reverse_cons, List.append_assoc]
      change places (r.reverse ++ '/' :: []) = places (r.reverse ++ '/' :: ['.'])
      rw [places_append, places_append]
      rfl
    · rw [List.reverse_cons, List.reverse_cons, List.reverse_cons]
      cases r.reverse with
      | nil => simp
      | cons a l => simp
  | case2 c r ih =>
    rw [trimPath]
    refine ⟨ih.1.trans ?_, ih.2.trans ?_⟩
    · rw [List.reverse_cons (a := '/')]
      rw [places_append, places_nil, List.append_nil]
    · rw [List.reverse_cons (a := '/')]
      cases h : (c :: r).reverse with
      | nil => simp at h
      | cons a l => simp
  | case3 r h1 h2 =>
    rw [trimPath]
    · exact ⟨rfl, Iff.rfl⟩
    · exact h1
    · exact h2

theorem dropWhile_file {l : List Char} (hf : '/' ∉ l) (r : List Char) : (l ++ '/' :: r).dropWhile (· ≠ '/') = '/' :: r := by
  rw [List.dropWhile_append_of_pos (by intro c hc; simp; rintro rfl; exact hf hc)]
  simp

theorem trim_file {l r : List Char} (hf : '/' ∉ l) (h0 : l ≠ []) (h1 : l ≠ ['.']) : trimPath (l ++ r) = l ++ r := by
  cases l with
  | nil => exact absurd rfl h0
  | cons c l =>
    have hc : c ≠ '/' := fun e => hf (by simp [e])
    rw [List.cons_append, trimPath]
    · intro r' e
      simp only [List.cons.injEq] at e
      cases l with
      | nil => exact h1 (by rw [e.1])
      | cons d l =>
        simp only [List.cons_append, List.cons.injEq] at e
        exact hf (by simp [e.2.1])
    · intro c' r' e
      simp only [List.cons.injEq] at e
      exact hc e.1

/-- The directory of a file. -/
theorem parent_file (D f : String) (hf : '/' ∉ f.toList) (h0 : f ≠ "") (h1 : f ≠ ".") :
    ∃ dir, pathParent (D ++ "/" ++ f) = some dir ∧ places dir.toList = places D.toList ∧ (Rooted dir ↔ Rooted (D ++ "/" ++ f)) := by
  have e : (D ++ "/" ++ f).toList = D.toList ++ '/' :: f.toList := by
    rw [String.toList_append, String.toList_append, show "/".toList = ['/'] from rfl, List.append_assoc, List.singleton_append]
  have e' : (D ++ "/" ++ f).toList.reverse = f.toList.reverse ++ '/' :: D.toList.reverse := by
    rw [e, List.reverse_append, List.reverse_cons, List.append_assoc, List.singleton_append]
  have hf' : '/' ∉ f.toList.reverse := by simpa using hf
  have h0' : f.toList.reverse ≠ [] := by
    intro h
    exact h0 (String.toList_inj.1 (by simpa using h))
  have h1' : f.toList.reverse ≠ ['.'] := by
    intro h
    exact h1 (String.toList_inj.1 (List.reverse_eq_iff.1 h))
  have ht := trim_file (r := '/' :: D.toList.reverse) hf' h0' h1'
  obtain ⟨t1, t2⟩ := trim_places ('/' :: D.toList.reverse)
  have hr : ('/' :: D.toList.reverse).reverse = D.toList ++ '/' :: [] := by simp
  rw [hr] at t1 t2
  refine ⟨String.ofList (trimPath ('/' :: D.toList.reverse)).reverse, ?_, ?_, ?_⟩
  · unfold pathParent
    simp only
    rw [e', ht, dropWhile_file hf', if_neg]
    rintro (h | h)
    · simp at h
    · have := congrArg List.length h
      simp only [List.length_append, List.length_cons, List.length_nil] at this
      have := List.length_pos_iff.2 h0'
      omega
  · rw [String.toList_ofList, t1, places_append, places_nil, List.append_nil]
  · unfold Rooted
    rw [String.toList_ofList, t2, e]
    cases D.toList with
    | nil => simp
    | cons a l => simp

/-- A file without a directory. -/
theorem parent_plain (f : String) (hf : '/' ∉ f.toList) (h0 : f ≠ "") (h1 : f ≠ ".") : pathParent f = some "" := by
  have hf' : '/' ∉ f.toList.reverse := by simpa using hf
  have h0' : f.toList.reverse ≠ [] := by
    intro h
    exact h0 (String.toList_inj.1 (by simpa using h))
  have h1' : f.toList.reverse ≠ ['.'] := by
    intro h
    exact h1 (String.toList_inj.1 (List.reverse_eq_iff.1 h))
  have ht := trim_file (r := []) hf' h0' h1'
  rw [List.append_nil] at ht
  have hd : f.toList.reverse.dropWhile (· ≠ '/') = [] := by
    rw [List.dropWhile_eq_nil_iff]
    intro c hc
    simp
    rintro rfl
    exact hf' hc
  unfold pathParent
  simp only
  rw [ht, hd, if_neg]
  · rfl
  · rintro (h | h)
    · exact h0' h
    · rw [h] at hf'; simp at hf'

theorem resolves_places {dir p q : String} (h : Resolves dir p q) (hp : ¬ Rooted p) : places q.toList = places dir.toList ++ places p.toList ∧ (Rooted q ↔ Rooted dir) := by
  obtain ⟨h1, h2⟩ := h.2 hp
  have e : ∀ s : String, places s.toList = (names s).filter (· ≠ ['.']) := by
    intro s
    unfold places names
    rw [List.filter_filter]
    congr 1
    funext n
    simp [Bool.and_comm]
  exact ⟨by rw [e, e, e, h1, List.filter_append], h2⟩

end M2S
