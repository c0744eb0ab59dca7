import Verif.Model.Archive

/-!
Proofs about the names in archives (C37).
-/

namespace Proof.Archive
open Model.Archive

theorem removeGo_skip (pat : List Char) (a s : List Char) : removeGo pat a.length (a ++ s) = removeGo pat 0 s := by
  induction a with
  | nil => rfl
  | cons c a ih => simpa [removeGo] using ih

theorem remove_prefix {pat : List Char} (hp : pat ≠ []) (s : List Char) : remove pat (pat ++ s) = remove pat s := by
  cases pat with
  | nil => exact absurd rfl hp
  | cons c p =>
    rw [remove, List.cons_append, removeGo, if_pos (by rw [← List.cons_append]; exact List.prefix_append _ _)]
    exact removeGo_skip _ p s

theorem remove_cons {pat : List Char} {c : Char} {s : List Char} (h : ¬pat <+: c :: s) : remove pat (c :: s) = c :: remove pat s := by
  rw [remove, removeGo, if_neg h]
  rfl

theorem remove_nil (pat : List Char) : remove pat [] = [] := rfl

/-- A pattern at the beginning of `a ++ x :: b` that does not contain `x` is at the beginning of `a`. -/
theorem prefix_of_not_mem {pat a b : List Char} {x : Char} (hx : x ∉ pat) (h : pat <+: a ++ x :: b) : pat <+: a := by
  rcases Nat.lt_or_ge a.length pat.length with hl | hl
  · exfalso
    have h2 : a ++ [x] <+: pat := by
      have h3 : a ++ [x] <+: a ++ x :: b := by
        rw [List.prefix_append_right_inj]
        exact ⟨b, rfl⟩
      exact List.prefix_of_prefix_length_le h3 h (by simp; omega)
    exact hx (h2.subset (by simp))
  · exact List.prefix_of_prefix_length_le h (List.prefix_append _ _) hl

theorem remove_append {pat : List Char} (hp : pat ≠ []) {x : Char} (hx : x ∉ pat) (b : List Char) :
    ∀ (m : Nat) (a : List Char), a.length ≤ m → remove pat (a ++ x :: b) = remove pat a ++ x :: remove pat b := by
  intro m
  induction m with
  | zero =>
    intro a ha
    have : a = [] := List.length_eq_zero_iff.mp (by omega)
    subst this
    rw [List.nil_append, remove_cons, remove_nil, List.nil_append]
    intro h
    obtain ⟨t, ht⟩ := h
    cases pat with
    | nil => exact hp rfl
    | cons c p =>
      simp only [List.cons_append, List.cons.injEq] at ht
      exact hx (by simp [ht.1])
  | succ m ih =>
    intro a ha
    by_cases h : pat <+: a ++ x :: b
    · obtain ⟨a', rfl⟩ := prefix_of_not_mem hx h
      rw [List.append_assoc, remove_prefix hp, remove_prefix hp]
      apply ih
      have : 0 < pat.length := List.length_pos_iff.mpr hp
      simp only [List.length_append] at ha
      omega
    · cases a with
      | nil => exact (ih [] (by simp))
      | cons c a =>
        rw [List.cons_append] at h ⊢
        rw [remove_cons h, remove_cons, ih a (by simp at ha; omega), List.cons_append]
        intro h'
        exact h (h'.trans ⟨x :: b, by simp⟩)

/-- The ending is removed. -/
theorem remove_ending : ∀ (m : Nat) (s : List Char), s.length ≤ m → remove ".npz".toList (s ++ ".npz".toList) = remove ".npz".toList s := by
  intro m
  induction m with
  | zero =>
    intro s hs
    have : s = [] := List.length_eq_zero_iff.mp (by omega)
    subst this
    decide
  | succ m ih =>
    intro s hs
    by_cases h : ".npz".toList <+: s
    · obtain ⟨s', rfl⟩ := h
      rw [List.append_assoc, remove_prefix (by decide), remove_prefix (by decide)]
      apply ih
      simp at hs
      omega
    · cases s with
      | nil => decide
      | cons c s =>
        rw [remove_cons h, List.cons_append, remove_cons, ih s (by simp at hs; omega)]
        intro h'
        obtain ⟨t, ht⟩ := h'
        change '.' :: 'n' :: 'p' :: 'z' :: t = c :: (s ++ ['.', 'n', 'p', 'z']) at ht
        simp only [List.cons.injEq] at ht
        obtain ⟨rfl, ht⟩ := ht
        match s with
        | [] => simp at ht
        | [c1] => simp at ht
        | [c1, c2] => simp at ht
        | c1 :: c2 :: c3 :: s =>
          simp only [List.cons_append, List.cons.injEq] at ht
          exact h ⟨s, by simpa using ⟨ht.1, ht.2.1, ht.2.2.1⟩⟩

theorem remove_length (pat : List Char) (hp : pat ≠ []) : ∀ (m : Nat) (s : List Char), s.length ≤ m →
    (remove pat s).length ≤ s.length ∧ (pat <:+: s → (remove pat s).length < s.length) ∧ (¬pat <:+: s → remove pat s = s) := by
  have hpos : 0 < pat.length := List.length_pos_iff.mpr hp
  intro m
  induction m with
  | zero =>
    intro s hs
    have : s = [] := List.length_eq_zero_iff.mp (by omega)
    subst this
    refine ⟨by simp [remove_nil], fun h => ?_, fun _ => rfl⟩
    simp at h
    exact absurd h hp
  | succ m ih =>
    intro s hs
    by_cases h : pat <+: s
    · obtain ⟨s', rfl⟩ := h
      rw [remove_prefix hp]
      simp only [List.length_append] at hs ⊢
      have := (ih s' (by omega)).1
      exact ⟨by omega, fun _ => by omega, fun h => absurd (List.prefix_append _ _).isInfix h⟩
    · cases s with
      | nil =>
        refine ⟨by simp [remove_nil], fun h => ?_, fun _ => rfl⟩
        simp at h
        exact absurd h hp
      | cons c s =>
        obtain ⟨h1, h2, h3⟩ := ih s (by simp at hs; omega)
        rw [remove_cons h]
        refine ⟨by simpa using h1, fun hi => ?_, fun hi => ?_⟩
        · rcases List.infix_cons_iff.mp hi with hi | hi
          · exact absurd hi h
          · simpa using h2 hi
        · rw [h3 fun h' => hi (List.infix_cons_iff.mpr (Or.inr h'))]

theorem remove_eq_iff {pat : List Char} (hp : pat ≠ []) (s : List Char) : remove pat s = s ↔ ¬pat <:+: s := by
  obtain ⟨_, h2, h3⟩ := remove_length pat hp s.length s (le_refl _)
  exact ⟨fun h h' => by have := h2 h'; rw [h] at this; omega, h3⟩

/-- The name that is read back. -/
def loadedKey {M : Type} (key : List Char) (x : Stored M) : List Char :=
  if x.sparse then remove ".npz".toList (remove "sparse_".toList key) else remove ".npz".toList (remove "dense_".toList key)

theorem strip (pre key : List Char) (hp : pre ≠ []) (hd : '.' ∉ pre) (hn : remove pre "npz".toList = "npz".toList) :
    remove ".npz".toList (remove pre (pre ++ key ++ ".npz".toList)) = remove ".npz".toList (remove pre key) := by
  rw [List.append_assoc, remove_prefix hp, show key ++ ".npz".toList = key ++ '.' :: "npz".toList from rfl,
    remove_append hp hd _ key.length key (le_refl _), hn]
  exact remove_ending _ _ (le_refl _)

theorem loadedKey_eq {M : Type} (key : List Char) (x : Stored M) : loadedKey key x = key ↔
    ¬".npz".toList <:+: key ∧ ¬(if x.sparse then "sparse_".toList else "dense_".toList) <:+: key := by
  have gen : ∀ pre : List Char, pre ≠ [] → (remove ".npz".toList (remove pre key) = key ↔ ¬".npz".toList <:+: key ∧ ¬pre <:+: key) := by
    intro pre hp
    constructor
    · intro h
      have l1 := (remove_length ".npz".toList (by decide) _ (remove pre key) (le_refl _)).1
      have l2 := remove_length pre hp _ key (le_refl _)
      rw [h] at l1
      have hn : ¬pre <:+: key := fun h' => by have := l2.2.1 h'; omega
      rw [(remove_eq_iff hp key).mpr hn] at h
      exact ⟨(remove_eq_iff (by decide) key).mp h, hn⟩
    · rintro ⟨h1, h2⟩
      rw [(remove_eq_iff hp key).mpr h2, (remove_eq_iff (by decide) key).mpr h1]
  unfold loadedKey
  split
  · exact gen _ (by decide)
  · exact gen _ (by decide)

/-- A pattern in `a ++ x :: b` that does not contain `x` is in `a` or in `b`. -/
theorem infix_split {pat : List Char} (hp : pat ≠ []) {x : Char} (hx : x ∉ pat) (b : List Char) : ∀ a : List Char, pat <:+: a ++ x :: b → pat <:+: a ∨ pat <:+: b := by
  intro a
  induction a with
  | nil =>
    intro h
    rcases List.infix_cons_iff.mp h with h | h
    · have := prefix_of_not_mem (a := []) hx h
      simp at this
      exact absurd this hp
    · exact Or.inr h
  | cons c a ih =>
    intro h
    rw [List.cons_append] at h
    rcases List.infix_cons_iff.mp h with h | h
    · rw [← List.cons_append] at h
      exact Or.inl (prefix_of_not_mem hx h).isInfix
    · rcases ih h with h | h
      · exact Or.inl (List.infix_cons_iff.mpr (Or.inr h))
      · exact Or.inr h

theorem contains_dense (key : List Char) :
    contains "sparse".toList ("dense_".toList ++ key ++ ".npz".toList) = decide ("sparse".toList <:+: key) := by
  rw [contains]
  congr 1
  apply propext
  constructor
  · intro h
    have h : "sparse".toList <:+: "dense".toList ++ '_' :: (key ++ '.' :: "npz".toList) := by simpa using h
    rcases infix_split (by decide) (by decide) _ _ h with h | h
    · exact absurd h (by decide)
    · rcases infix_split (by decide) (by decide) _ _ h with h | h
      · exact h
      · exact absurd h (by decide)
  · intro h
    exact h.trans ⟨"dense_".toList, ".npz".toList, rfl⟩

theorem contains_sparse (key : List Char) : contains "sparse".toList ("sparse_".toList ++ key ++ ".npz".toList) = true := by
  rw [contains, decide_eq_true_iff]
  exact ⟨[], '_' :: (key ++ ".npz".toList), by simp⟩

variable {M B : Type}

theorem fileName_ne_basis (key : List Char) (x : Stored M) : fileName key x ≠ "basis.pickle".toList := by
  unfold fileName
  split <;> (intro h; exact absurd (congrArg List.head? h) (by simp))

theorem fileName_inj {k k' : List Char} {x x' : Stored M} (h : fileName k x = fileName k' x') : k = k' := by
  unfold fileName at h
  split at h <;> split at h
  · simpa using h
  · exact absurd (congrArg List.head? h) (by simp)
  · exact absurd (congrArg List.head? h) (by simp)
  · simpa using h

/-- Names that can be read back. -/
def Readable (e : List Char × Stored M) : Prop := e.2.sparse = true ∨ ¬"sparse".toList <:+: e.1

theorem loadStep_matrix (d : List (List Char × Stored M)) (b : Option B) (e : List Char × Stored M) :
    (Readable e → loadStep (some (d, b)) (fileName e.1 e.2, .matrix e.2) = some (insert d (loadedKey e.1 e.2) e.2, b)) ∧
      (¬Readable e → loadStep (some (d, b)) (fileName e.1 e.2, .matrix e.2) = none) := by
  obtain ⟨k, s, m⟩ := e
  simp only [loadStep, Option.bind_some]
  rw [if_neg (fileName_ne_basis k _)]
  cases s with
  | true =>
    have hf : fileName k (⟨true, m⟩ : Stored M) = "sparse_".toList ++ k ++ ".npz".toList := rfl
    rw [hf, if_pos (contains_sparse k)]
    refine ⟨fun _ => ?_, fun h => absurd (Or.inl rfl) h⟩
    rw [if_pos rfl, strip _ k (by decide) (by decide) (by decide)]
    rfl
  | false =>
    have hf : fileName k (⟨false, m⟩ : Stored M) = "dense_".toList ++ k ++ ".npz".toList := rfl
    rw [hf, contains_dense]
    constructor
    · intro h
      rcases h with h | h
      · exact absurd h (by simp)
      · rw [if_neg (by simpa using h), if_neg (by simp), strip _ k (by decide) (by decide) (by decide)]
        rfl
    · intro h
      have : "sparse".toList <:+: k := by
        by_contra h'
        exact h (Or.inr h')
      rw [if_pos (by simpa using this)]
      simp

theorem save_loop (writable : List Char → Bool) (l : List (List Char × Stored M)) : ∀ z : Zip M B,
    (l.map Prod.fst).Nodup → (∀ e ∈ l, writable (fileName e.1 e.2) = true) → (∀ e ∈ l, fileName e.1 e.2 ∉ z.map Prod.fst) →
    saveLoop writable z l = some (z ++ l.map fun e => (fileName e.1 e.2, File.matrix e.2)) := by
  induction l with
  | nil => intro z _ _ _; simp [saveLoop]
  | cons e l ih =>
    intro z hn hw hz
    rw [List.map_cons, List.nodup_cons] at hn
    rw [saveLoop, hw e (by simp), if_neg (by simp), if_neg (by simpa using hz e (by simp)), ih _ hn.2 (fun a ha => hw a (by simp [ha]))]
    · simp
    · intro a ha
      rw [List.map_append, List.mem_append]
      rintro (h | h)
      · exact hz a (by simp [ha]) h
      · simp only [List.map_cons, List.map_nil, List.mem_singleton] at h
        exact hn.1 (List.mem_map.mpr ⟨a, ha, fileName_inj h⟩)

theorem foldl_none (z : Zip M B) : z.foldl loadStep none = none := by
  induction z with
  | nil => rfl
  | cons f z ih => exact ih

theorem load_loop (l : List (List Char × Stored M)) (hr : ∀ e ∈ l, Readable e) : ∀ (d : List (List Char × Stored M)) (b : Option B),
    (l.map fun e => (fileName e.1 e.2, File.matrix e.2)).foldl loadStep (some (d, b))
      = some (l.foldl (fun d e => insert d (loadedKey e.1 e.2) e.2) d, b) := by
  induction l with
  | nil => intro d b; rfl
  | cons e l ih =>
    intro d b
    rw [List.map_cons, List.foldl_cons, (loadStep_matrix d b e).1 (hr e (by simp)), ih fun a ha => hr a (by simp [ha])]
    rfl

theorem load_loop_raises (l : List (List Char × Stored M)) (e : List Char × Stored M) (he : e ∈ l) (hn : ¬Readable e) :
    ∀ (s : Option (List (List Char × Stored M) × Option B)),
    (l.map fun e => (fileName e.1 e.2, File.matrix e.2)).foldl loadStep s = none := by
  induction l with
  | nil => simp at he
  | cons a l ih =>
    intro s
    rw [List.map_cons, List.foldl_cons]
    rcases List.mem_cons.mp he with rfl | h
    · have : loadStep s (fileName e.1 e.2, .matrix e.2) = none := by
        cases s with
        | none => rfl
        | some s => exact (loadStep_matrix s.1 s.2 e).2 hn
      rw [this, foldl_none]
    · exact ih h _

theorem insert_all (l : List (List Char × Stored M)) : ∀ d : List (List Char × Stored M), ((d ++ l).map Prod.fst).Nodup →
    l.foldl (fun d e => insert d e.1 e.2) d = d ++ l := by
  induction l with
  | nil => intro d _; simp
  | cons e l ih =>
    intro d hn
    rw [List.foldl_cons]
    have hd : e.1 ∉ d.map Prod.fst := by
      rw [List.map_append, List.nodup_append] at hn
      intro h
      exact hn.2.2 e.1 h e.1 (by simp) rfl
    rw [show insert d e.1 e.2 = d ++ [e] from if_neg hd, ih (d ++ [e]) (by simpa using hn)]
    simp

end Proof.Archive
