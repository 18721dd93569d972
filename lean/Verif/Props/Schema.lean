import Verif.Spec.Schema
import Verif.Props.Manifest
import Verif.Cli
/-
C74: the published schema of manifests and the tool.
-/
namespace M2S
open ManifestSpec

theorem valid_string {endings : List String} {v : Json} (h : Valid (.string endings) v) : ∃ s e, v = .str s ∧ e ∈ endings ∧ Contains s e := by
  cases h with
  | string _ s e h1 h2 => exact ⟨s, e, rfl, h1, h2⟩

theorem valid_object {props : List (String × Schema)} {req : List String} {v : Json} (h : Valid (.object props req) v) :
    (∀ k ∈ req, ∃ x, Field v k x) ∧ ∀ k s x, (k, s) ∈ props → Field v k x → Valid s x := by
  cases h with
  | object _ _ fields h1 h2 => exact ⟨h1, h2⟩

/-- The schema has the game's banks and songs, all required. -/
theorem schema_banks : ∃ props, manifestSchema = .object props (gameOrder.map (·.1)) ∧ ∀ b ∈ gameOrder, (b.1, bankSchema b.2) ∈ props := by
  refine ⟨_, rfl, ?_⟩
  simp [gameOrder]

theorem valid_entry (j : Json) (h : Valid manifestSchema j) (bank : String × List String) (hb : bank ∈ gameOrder) (name : String) (hn : name ∈ bank.2) :
    ∃ b, Field j bank.1 b ∧ ∃ e, Field b name e ∧ Valid songSchema e := by
  obtain ⟨props, h1, h2⟩ := schema_banks
  rw [h1] at h
  obtain ⟨g1, g2⟩ := valid_object h
  obtain ⟨b, hfb⟩ := g1 bank.1 (List.mem_map.2 ⟨bank, hb, rfl⟩)
  obtain ⟨k1, k2⟩ := valid_object (g2 _ _ b (h2 bank hb) hfb)
  obtain ⟨e, he⟩ := k1 name hn
  exact ⟨b, hfb, e, he, k2 name _ e (List.mem_map.2 ⟨name, hn, rfl⟩) he⟩

theorem valid_heeded (dir : String) (e : Json) (he : Valid songSchema e) (d : SongDef String) (hs : Slot dir e d) : Heeded e d := by
  obtain ⟨-, g⟩ := valid_object he
  constructor
  · intro v hv
    have := g "tempoAdjust" (.number "Tempo adjustment factor (default 0.3)") v (by simp) hv
    cases this with
    | int _ n =>
      by_cases hn : |n| < 2 ^ 53
      · exact .inr ⟨n, .int n hn, hs.tempoInt n hv hn⟩
      · exact .inl ⟨n, rfl, not_lt.1 hn⟩
    | float _ q => exact .inr ⟨q, .float q, hs.tempo q hv⟩
  · intro v hv
    have := g "loop" .boolean v (by simp) hv
    cases this with
    | boolean b => rw [hs.loops b hv]

theorem forall₂_mem {α β : Type} {R : α → β → Prop} {S : α → β → Prop} {l : List α} {m : List β} (h : List.Forall₂ R l m) (hs : ∀ a ∈ l, ∀ b, R a b → S a b) : List.Forall₂ S l m := by
  induction h with
  | nil => exact .nil
  | cons hab _ ih => exact .cons (hs _ (by simp) _ hab) (ih fun a ha => hs a (by simp [ha]))

/-- **C74 (valid manifests).** A document that is valid under the published schema is accepted; every slot of the game is the one its entry in the document describes, and tempo and loop flag of the entry are heeded. -/
theorem C74_valid (j : Json) (dir : String) (h : Valid manifestSchema j) : ∃ m, manifestNew j dir = .ok m ∧
    List.Forall₂ (fun bank songs => List.Forall₂ (fun name d => ∃ b e, Field j bank.1 b ∧ Field b name e ∧ Slot dir e d ∧ Heeded e d) bank.2 songs) gameOrder m := by
  obtain ⟨m, hm⟩ := (C46_accepted j dir).1.2 (by
    intro bank hb name hn
    obtain ⟨b, h1, e, h2, h3⟩ := valid_entry j h bank hb name hn
    rw [index_field h1, index_field h2]
    obtain ⟨g1, g2⟩ := valid_object h3
    obtain ⟨v, hv⟩ := g1 "input" (by simp)
    obtain ⟨s, -, rfl, -⟩ := valid_string (g2 "input" (.string [".mid", ".json"]) v (by simp) hv)
    exact ⟨s, hv⟩)
  refine ⟨m, hm, forall₂_mem (C46_slots j dir m hm) ?_⟩
  intro bank hb songs hsongs
  refine forall₂_mem hsongs ?_
  intro name hn d hd
  obtain ⟨b, h1, e, h2, h3⟩ := valid_entry j h bank hb name hn
  rw [index_field h1, index_field h2] at hd
  exact ⟨b, e, h1, h2, hd, valid_heeded dir e h3 d hd⟩

/-- A manifest in which all entries are the same. -/
def uniform (e : Json) : Json := .obj (gameOrder.map fun b => (b.1, .obj (b.2.map fun n => (n, e))))

theorem field_mem {fs : List (String × Json)} {k : String} {v : Json} (h : Field (.obj fs) k v) : (k, v) ∈ fs := by
  obtain ⟨a, b, h1, -⟩ := h
  cases h1
  simp

theorem uniform_field {α : Type} (l : List α) (f : α → String) (g : α → Json) (a : α) (ha : a ∈ l) : ∃ v, Field (.obj (l.map fun a => (f a, g a))) (f a) v :=
  field_exists (p := (f a, g a)) rfl (List.mem_map.2 ⟨a, ha, rfl⟩)

theorem uniform_valid (e : Json) (he : Valid songSchema e) : Valid manifestSchema (uniform e) := by
  have hbank : ∀ b : String × List String, Valid (bankSchema b.2) (.obj (b.2.map fun n => (n, e))) := by
    intro b
    refine .object _ _ _ (fun k hk => uniform_field b.2 id (fun _ => e) k hk) ?_
    intro k s v hs hv
    obtain ⟨n, -, h1⟩ := List.mem_map.1 hs
    obtain ⟨n', -, h2⟩ := List.mem_map.1 (field_mem hv)
    cases h1; cases h2
    exact he
  have hnd : (gameOrder.map (·.1)).Nodup := by decide
  refine .object _ _ _ (fun k hk => ?_) ?_
  · have : k ∈ gameOrder.map (·.1) := hk
    obtain ⟨b, hb, rfl⟩ := List.mem_map.1 this
    exact uniform_field gameOrder (·.1) (fun b => .obj (b.2.map fun n => (n, e))) b hb
  · intro k s v hs hv
    have hs : (k, s) ∈ gameOrder.map fun b => (b.1, bankSchema b.2) := hs
    obtain ⟨b, hb, h1⟩ := List.mem_map.1 hs
    obtain ⟨b', hb', h2⟩ := List.mem_map.1 (field_mem hv)
    cases h1
    simp only [Prod.mk.injEq] at h2
    obtain ⟨h2, rfl⟩ := h2
    have : b' = b := List.inj_on_of_nodup_map hnd hb' hb h2
    subst this
    exact hbank b'

/-! ## How input files are read -/

theorem splitSlash_eq (cs : List Char) : splitSlash cs = cs.splitOn '/' := by
  induction cs with
  | nil => rfl
  | cons c cs ih =>
    rw [splitSlash, List.splitOn, List.splitOnP_cons, ← List.splitOn, ← ih]
    by_cases h : c = '/'
    · simp [h]
    · simp only [h, if_false, beq_iff_eq]
      cases hs : splitSlash cs with
      | nil => exact absurd hs (splitSlash_ne cs)
      | cons p ps => rfl

/-- The extension of a path whose last name is `stem.x`. -/
theorem extension_named (path x : String) (hx : '.' ∉ x.toList) (hx0 : x.toList ≠ []) (h : NamedWith path ("." ++ x)) : pathExtension path = some x := by
  obtain ⟨stem, h1, h2⟩ := h
  have e0 : ("." ++ x).toList = '.' :: x.toList := by simp
  rw [e0] at h1
  have hn : fileName path = some (stem ++ '.' :: x.toList) := by
    have e : ((path.toList.splitOn '/').filter fun n => n ≠ [] ∧ n ≠ ['.']) = (names path).filter fun n => n ≠ ['.'] := by
      unfold names
      rw [splitSlash_eq, List.filter_filter]
      apply List.filter_congr
      intro n _
      simp [Bool.and_comm]
    obtain ⟨l, hl⟩ := List.getLast?_eq_some_iff.1 h1
    have hne : (stem ++ '.' :: x.toList) ≠ ['.'] := by
      cases stem with
      | nil => exact absurd rfl h2
      | cons c stem => simp
    have hdd : (stem ++ '.' :: x.toList) ≠ ['.', '.'] := by
      cases stem with
      | nil => exact absurd rfl h2
      | cons c stem =>
        cases stem with
        | nil => simpa using fun _ => hx0
        | cons c stem => simp
    have hlast : ((names path).filter fun n => n ≠ ['.']).getLast? = some (stem ++ '.' :: x.toList) := by
      rw [hl, List.filter_append]
      simp [hne]
    unfold fileName
    rw [e, hlast]
    split
    · rename_i h
      simp only [Option.some.injEq] at h
      exact absurd h hdd
    · rfl
  unfold pathExtension
  rw [hn]
  have h3 : ∀ c ∈ x.toList.reverse, (decide (c ≠ '.')) = true := by
    intro c hc
    simp only [decide_eq_true_eq]
    rintro rfl
    exact hx (List.mem_reverse.1 hc)
  have e1 : (stem ++ '.' :: x.toList).reverse = x.toList.reverse ++ '.' :: stem.reverse := by simp
  simp only [Option.bind_some]
  rw [e1, List.dropWhile_append_of_pos h3, List.takeWhile_append_of_pos h3]
  obtain ⟨c, l, hc⟩ := List.exists_cons_of_ne_nil (show stem.reverse ≠ [] by simpa using h2)
  simp [hc]

theorem named_resolves {dir p q e : String} (hr : Resolves dir p q) (h : NamedWith p e) : NamedWith q e := by
  by_cases hp : Rooted p
  · rw [hr.1 hp]; exact h
  · obtain ⟨stem, h1, h2⟩ := h
    refine ⟨stem, ?_, h2⟩
    rw [(hr.2 hp).1, List.getLast?_append, h1]
    rfl

/-- **C74 (input files).** An entry whose input is named `….mid` is read as a MIDI file, one named `….json` as a song in JSON, wherever the manifest is. -/
theorem C74_input (x : Ext) (hx : x.extension = pathExtension) (dir : String) (e : Json) (d : SongDef String) (hs : Slot dir e d) (p : String) (hp : Field e "input" (.str p)) :
    ∃ q, d.input = some q ∧ Resolves dir p q ∧ (NamedWith p ".mid" → ∀ fs opt tempo, x.converter fs opt q tempo = x.songFromMidiFile fs q tempo opt) ∧
      (NamedWith p ".json" → ∀ fs opt tempo, x.converter fs opt q tempo = x.songFromJsonFile fs q) := by
  obtain ⟨p', q, h1, h2, h3⟩ := hs.input
  have e1 := index_field h1
  rw [index_field hp] at e1
  cases e1
  refine ⟨q, h2, h3, fun hn fs opt tempo => ?_, fun hn fs opt tempo => ?_⟩
  · have : pathExtension q = some "mid" := extension_named q "mid" (by decide) (by decide) (named_resolves h3 hn)
    unfold Ext.converter
    rw [hx, this]
    simp
  · have : pathExtension q = some "json" := extension_named q "json" (by decide) (by decide) (named_resolves h3 hn)
    unfold Ext.converter
    rw [hx, this]
    simp

/-! ## Where schema and tool disagree -/

theorem contains_of (a e b : String) : Contains (a ++ e ++ b) e := ⟨a.toList, b.toList, by simp⟩

/-- An entry with just an input whose name has `.mid` in it is valid. -/
theorem entry_valid (a b : String) : Valid songSchema (.obj [("input", .str (a ++ ".mid" ++ b))]) := by
  refine .object _ _ _ ?_ ?_
  · intro k hk
    simp only [List.mem_singleton] at hk
    subst hk
    exact ⟨_, [], [], rfl, by simp⟩
  · intro k s v hs hv
    have := field_mem hv
    simp only [List.mem_singleton, Prod.mk.injEq] at this
    obtain ⟨rfl, rfl⟩ := this
    simp only [List.mem_cons, Prod.mk.injEq, true_and, List.not_mem_nil, or_false] at hs
    rcases hs with rfl | ⟨h, -⟩ | ⟨h, -⟩
    · exact .string _ _ ".mid" (by simp) (contains_of a ".mid" b)
    · exact absurd h (by decide)
    · exact absurd h (by decide)

theorem forall₂_right {α β : Type} {R : α → β → Prop} {l : List α} {m : List β} (h : List.Forall₂ R l m) : ∀ b ∈ m, ∃ a ∈ l, R a b := by
  induction h with
  | nil => intro b hb; cases hb
  | cons hab _ ih =>
    intro b hb
    rcases List.mem_cons.1 hb with rfl | hb
    · exact ⟨_, by simp, hab⟩
    · obtain ⟨a, ha, h⟩ := ih b hb
      exact ⟨a, by simp [ha], h⟩

theorem uniform_index (e : Json) (b : String × List String) (hb : b ∈ gameOrder) (name : String) (hn : name ∈ b.2) : ((uniform e).index b.1).index name = e := by
  obtain ⟨v, hv⟩ := uniform_field gameOrder (·.1) (fun b => .obj (b.2.map fun n => (n, e))) b hb
  have hv' : Field (uniform e) b.1 v := hv
  rw [index_field hv']
  obtain ⟨b', hb', h2⟩ := List.mem_map.1 (field_mem hv)
  simp only [Prod.mk.injEq] at h2
  obtain ⟨h2, rfl⟩ := h2
  have hnd : (gameOrder.map (·.1)).Nodup := by decide
  have : b' = b := List.inj_on_of_nodup_map hnd hb' hb h2
  subst this
  obtain ⟨v, hv⟩ := uniform_field b'.2 id (fun _ => e) name hn
  have hv : Field (.obj (b'.2.map fun n => (n, e))) name v := hv
  rw [index_field hv]
  obtain ⟨n, -, h3⟩ := List.mem_map.1 (field_mem hv)
  cases h3
  rfl

theorem uniform_slots (e : Json) (dir : String) (m : Manifest) (h : manifestNew (uniform e) dir = .ok m) : ∀ b ∈ m, ∀ d ∈ b, Slot dir e d := by
  intro b hb d hd
  obtain ⟨bank, h1, h2⟩ := forall₂_right (C46_slots _ dir m h) b hb
  obtain ⟨name, h3, h4⟩ := forall₂_right h2 d hd
  rw [uniform_index e bank h1 name h3] at h4
  exact h4

theorem uniform_accepted (e : Json) (dir p : String) (he : Field e "input" (.str p)) : ∃ m, manifestNew (uniform e) dir = .ok m :=
  (C46_accepted _ dir).1.2 fun b hb n hn => ⟨p, by rw [uniform_index e b hb n hn]; exact he⟩

/-- **C74 (default tempo), false.** The schema documents 0.3 as the default tempo adjustment; the tool takes 0.2. -/
theorem C74_default_false : ∃ j m, Valid manifestSchema j ∧ manifestNew j "" = .ok m ∧ m.map List.length = [15, 16, 3] ∧
    ∀ b ∈ m, ∀ d ∈ b, d.tempoFactor = .ofRat (1 / 5) ∧ d.tempoFactor ≠ .ofRat documentedTempo := by
  obtain ⟨m, hm, -⟩ := C74_valid (uniform (.obj [("input", .str "a.mid")])) "" (uniform_valid _ (entry_valid "a" ""))
  refine ⟨_, m, uniform_valid _ (entry_valid "a" ""), hm, C46_counts _ _ m hm, ?_⟩
  intro b hb d hd
  have := (uniform_slots _ "" m hm b hb d hd).tempoDefault (fun x hx => by simpa using field_mem hx) (fun x hx => by simpa using field_mem hx)
  refine ⟨this, ?_⟩
  rw [this]
  intro h
  have h := congrArg (fun f => match f with | .fin q => decide (q < 1 / 4) | _ => false) h
  revert h
  decide +kernel

/-- **C74 (pattern), false.** The pattern of `input` is not anchored: a manifest that names `tune.midi` is valid, but the file is read as JSON. -/
theorem C74_pattern_false : ∃ j m, Valid manifestSchema j ∧ manifestNew j "" = .ok m ∧ m.map List.length = [15, 16, 3] ∧ ∀ b ∈ m, ∀ d ∈ b, ∃ q, d.input = some q ∧ names q = ["tune.midi".toList] ∧
    ∀ x : Ext, x.extension = pathExtension → ∀ fs opt tempo, x.converter fs opt q tempo = x.songFromJsonFile fs q := by
  obtain ⟨m, hm, -⟩ := C74_valid (uniform (.obj [("input", .str "tune.midi")])) "" (uniform_valid _ (entry_valid "tune" "i"))
  refine ⟨_, m, uniform_valid _ (entry_valid "tune" "i"), hm, C46_counts _ _ m hm, ?_⟩
  intro b hb d hd
  obtain ⟨p, q, h1, h2, h3⟩ := (uniform_slots _ "" m hm b hb d hd).input
  obtain rfl : p = "tune.midi" := by simpa using field_mem h1
  have hq : names q = ["tune.midi".toList] := by
    rw [(h3.2 (by rintro ⟨cs, h⟩; revert h; simp)).1]
    decide
  refine ⟨q, h2, hq, fun x hx fs opt tempo => ?_⟩
  have : pathExtension q = some "midi" := extension_named q "midi" (by decide) (by decide) ⟨"tune".toList, by rw [hq]; decide, by decide⟩
  unfold Ext.converter
  rw [hx, this]
  simp

/-- **C74 (other manifests), false.** The tool does not check what the schema demands of tempo and loop: a manifest that says `"loop": "no"` is not valid, but accepted, and its songs loop. -/
theorem C74_ignored_false : ∃ j m, ¬ Valid manifestSchema j ∧ manifestNew j "" = .ok m ∧ m.map List.length = [15, 16, 3] ∧
    ∀ bank ∈ gameOrder, ∀ n ∈ bank.2, Field ((j.index bank.1).index n) "loop" (.str "no") ∧ ∀ b ∈ m, ∀ d ∈ b, d.loops = true := by
  have hf : Field (.obj [("input", .str "a.mid"), ("loop", .str "no")]) "loop" (.str "no") := ⟨[("input", .str "a.mid")], [], rfl, by simp⟩
  obtain ⟨m, hm⟩ := uniform_accepted (.obj [("input", .str "a.mid"), ("loop", .str "no")]) "" "a.mid" ⟨[], [("loop", .str "no")], rfl, by simp⟩
  refine ⟨_, m, ?_, hm, C46_counts _ _ m hm, ?_⟩
  · intro hv
    obtain ⟨b, h1, e, h2, h3⟩ := valid_entry _ hv ("ending", ["Triforce", "Ending", "Staff"]) (by simp [gameOrder]) "Staff" (by simp)
    have := uniform_index (.obj [("input", .str "a.mid"), ("loop", .str "no")]) ("ending", ["Triforce", "Ending", "Staff"]) (by simp [gameOrder]) "Staff" (by simp)
    rw [index_field h1, index_field h2] at this
    subst this
    cases (valid_object h3).2 "loop" .boolean _ (by simp) hf
  · intro bank hb n hn
    rw [uniform_index _ bank hb n hn]
    refine ⟨hf, fun b hb d hd => (uniform_slots _ "" m hm b hb d hd).loopsDefault ?_⟩
    intro x hx
    have e1 := index_field hx
    rw [index_field hf] at e1
    cases e1

/-- A valid manifest with tempo and loop flag; its songs are read as MIDI files and have them. -/
example : ∃ m, manifestNew (uniform (.obj [("input", .str "tunes/a.mid"), ("tempoAdjust", .float (1 / 2)), ("loop", .bool false)])) "/home/u" = .ok m ∧
    ∀ b ∈ m, ∀ d ∈ b, d.tempoFactor = .ofRat (1 / 2) ∧ d.loops = false ∧ NamedWith "tunes/a.mid" ".mid" := by
  have hf : Field (.obj [("input", .str "tunes/a.mid"), ("tempoAdjust", .float (1 / 2)), ("loop", .bool false)]) "input" (.str "tunes/a.mid") := ⟨[], _, rfl, by simp⟩
  obtain ⟨m, hm⟩ := uniform_accepted _ "/home/u" _ hf
  refine ⟨m, hm, fun b hb d hd => ?_⟩
  have hs := uniform_slots _ _ m hm b hb d hd
  exact ⟨hs.tempo _ ⟨[_], [_], rfl, by simp⟩, hs.loops _ ⟨[_, _], [], rfl, by simp⟩, ['a'], by decide, by simp⟩

end M2S
