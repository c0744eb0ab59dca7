import Verif.Model.Formats
import Verif.Proof.Evaluate
import Verif.Props.C51

/-!
C55: changing the formats of the stored matrices.

`update` returns the object left behind and whether the call raised.  `o.ham` are the matrices with their drive functions;
`instantOf N o.ham t` is the operator.
-/

namespace Props
open Spec Model.Eval Model.Formats Proof.Eval

variable {R T K κ : Type} [CommRing R] [DecidableEq K] {N : Nat}

namespace Formats

theorem csr_compress (E : Nat → Nat → R) {i j : Nat} (hj : j < N) : csrEntry (compress N E) i j = E i j := by
  have hN : 0 < N := by omega
  show ∑ k ∈ Finset.Ico (i * N) ((i + 1) * N), (if k % N = j then E (k / N) (k % N) else 0) = E i j
  have hm : (i * N + j) % N = j := by rw [show i * N + j = j + N * i by ring, Nat.add_mul_mod_self_left, Nat.mod_eq_of_lt hj]
  have hd : (i * N + j) / N = i := by
    rw [show i * N + j = j + N * i by ring, Nat.add_mul_div_left _ _ hN, Nat.div_eq_of_lt hj, Nat.zero_add]
  rw [Finset.sum_eq_single (i * N + j)]
  · rw [hm, hd, if_pos rfl]
  · intro b hb hne
    rw [Finset.mem_Ico, show (i + 1) * N = i * N + N by ring] at hb
    obtain ⟨c, rfl⟩ := Nat.exists_eq_add_of_le hb.1
    have hc : c < N := by omega
    rw [if_neg]
    rw [show i * N + c = c + N * i by ring, Nat.add_mul_mod_self_left, Nat.mod_eq_of_lt hc]
    rintro rfl
    exact hne rfl
  · intro h
    exact absurd (Finset.mem_Ico.mpr ⟨by omega, by rw [show (i + 1) * N = i * N + N by ring]; omega⟩) h

theorem mat_convert (f : Fmt) (S : Stored R) : (convert N f S).mat N = S.mat N := by
  cases f
  · funext i j; exact csr_compress _ j.isLt
  · funext i j; exact csr_compress (fun a b => S.entry b a) i.isLt
  · rfl
  · rfl

theorem fmt_convert (f : Fmt) (S : Stored R) : fmtOf (convert N f S) = f := by cases f <;> rfl

/-- Same keys and drives, same elements of the matrices. -/
def Same (N : Nat) (a b : List (Entry T R K)) : Prop :=
  a.map (fun e => (e.key, e.drive, e.mat.mat N)) = b.map fun e => (e.key, e.drive, e.mat.mat N)

theorem same_listEntry {S : Stored R} {dyn dyn' : List (Entry T R K)} {f : Fmt} {k : K} (h : listEntry N S dyn f k = some dyn') :
    Same N dyn' dyn := by
  unfold listEntry at h
  split at h
  · simp at h
  · split at h
    · simp at h
    · obtain rfl := Option.some.inj h
      unfold Same
      rw [List.map_map]
      refine List.map_congr_left fun e _ => ?_
      simp only [Function.comp]
      split
      · rw [mat_convert]
      · rfl

theorem same_listLoop (S : Stored R) (l : List (Fmt × K)) : ∀ dyn : List (Entry T R K), Same N (listLoop N S l dyn).1 dyn := by
  induction l with
  | nil => intro dyn; rfl
  | cons a l ih =>
    intro dyn
    rw [listLoop]
    cases h : listEntry N S dyn a.1 a.2 with
    | none => exact rfl
    | some d => exact (ih d).trans (same_listEntry h)

theorem strEntry_same {c : Option Fmt} {f : Fmt} {e e' : Entry T R K} (h : strEntry N c f e = some e') :
    (e'.key, e'.drive, e'.mat.mat N) = (e.key, e.drive, e.mat.mat N) := by
  unfold strEntry at h
  split at h
  · obtain rfl := Option.some.inj h; rfl
  · cases c with
    | none => simp at h
    | some c => obtain rfl := Option.some.inj h; rw [mat_convert]

theorem mapM_same {c : Option Fmt} {f : Fmt} : ∀ {l l' : List (Entry T R K)}, l.mapM (strEntry N c f) = some l' → Same N l' l
  | [], l', h => by simp at h; subst h; rfl
  | e :: l, l', h => by
    simp only [List.mapM_cons, Option.pure_def, Option.bind_eq_bind, Option.bind_eq_some_iff, Option.some.injEq] at h
    obtain ⟨e', he, l'', hl, rfl⟩ := h
    have := mapM_same hl
    unfold Same at *
    rw [List.map_cons, List.map_cons, this, strEntry_same he]

theorem same_driven {a b : List (Entry T R K)} (h : Same N a b) (t : T) :
    drivenOf N (a.map fun e => (e.drive, e.mat)) t = drivenOf N (b.map fun e => (e.drive, e.mat)) t := by
  have := congrArg (fun l => (l.map fun x : K × (T → R) × Matrix (Fin N) (Fin N) R => x.2.1 t • x.2.2).sum) h
  simp only [List.map_map] at this
  unfold drivenOf
  simp only [List.map_map]
  exact this

theorem setDynamic_same (c : Option Fmt) (d : DynFmt K) (o : Obj T R K) :
    (setDynamic N c d o).1.static = o.static ∧ Same N (setDynamic N c d o).1.dynamic o.dynamic := by
  cases d with
  | none => exact ⟨rfl, rfl⟩
  | dict l => exact ⟨rfl, rfl⟩
  | list l => exact ⟨rfl, same_listLoop o.static l o.dynamic⟩
  | str f =>
    unfold setDynamic
    simp only
    cases h : o.dynamic.mapM (strEntry N c f) with
    | none => exact ⟨rfl, rfl⟩
    | some l => exact ⟨rfl, mapM_same h⟩

theorem getMatvecs_same (o : Obj T R K) : o.getMatvecs.static = o.static ∧ Same N o.getMatvecs.dynamic o.dynamic := by
  refine ⟨rfl, ?_⟩
  unfold Same Obj.getMatvecs
  rw [List.map_map]
  rfl

theorem setStatic_static (f : Option Fmt) (o : Obj T R K) :
    (setStatic N f o).static.mat N = o.static.mat N ∧ (setStatic N f o).dynamic = o.dynamic := by
  cases f with
  | none => exact ⟨rfl, rfl⟩
  | some f => exact ⟨mat_convert f _, rfl⟩

theorem dot_getMatvecs (o : Obj T R K) (t : T) (V : Matrix (Fin N) κ R) :
    o.getMatvecs.dot N t V = Model.Eval.dot N o.ham t V none true 1 := by
  simp only [Obj.dot, Obj.getMatvecs, Obj.ham, Model.Eval.dot, List.foldlM_map]
  congr 1
  funext y
  rw [addDynamic, List.foldlM_map]

end Formats

open Formats

/-- C55: whatever formats are requested, and even if the call raises, the stored operator is the same at every time. -/
theorem C55_operator (f : Option Fmt) (d : DynFmt K) (o : Obj T R K) (t : T) :
    instantOf N (update N f d o).1.ham t = instantOf N o.ham t := by
  have key : (update N f d o).1.static.mat N = o.static.mat N ∧ Same N (update N f d o).1.dynamic o.dynamic := by
    have h1 := setStatic_static (N := N) f o
    have h2 := setDynamic_same (N := N) (constructor f) d (setStatic N f o)
    unfold update
    simp only
    split
    · rw [h2.1, ← h1.1, ← h1.2]; exact ⟨rfl, h2.2⟩
    · have h3 := getMatvecs_same (N := N) (setDynamic N (constructor f) d (setStatic N f o)).1
      rw [h3.1, h2.1, ← h1.1, ← h1.2]
      exact ⟨rfl, h3.2.trans h2.2⟩
  rw [instantOf_eq, instantOf_eq]
  unfold Obj.ham
  simp only
  rw [key.1, same_driven key.2]

/-- C55, part: if the call does not raise, products with the object are products with the operator, and the static part
has the requested format.  Missing: the state after an exception (`C55_exception_fails`). -/
theorem C55_products_partial (f : Option Fmt) (d : DynFmt K) (o : Obj T R K) (h : (update N f d o).2 = false) (t : T)
    (V : Matrix (Fin N) κ R) :
    (update N f d o).1.dot N t V = some (instantOf N o.ham t * V) ∧ ∀ g, f = some g → fmtOf (update N f d o).1.static = g := by
  have hu : ∃ o' : Obj T R K, (update N f d o).1 = o'.getMatvecs ∧ (f.isSome → fmtOf o'.static = f.getD .csr) := by
    unfold update at h ⊢
    simp only at h ⊢
    split at h
    · rename_i h'; rw [h'] at h; exact absurd h (by simp)
    · rename_i h'
      rw [if_neg h']
      refine ⟨_, rfl, fun hf => ?_⟩
      rw [(setDynamic_same (N := N) (constructor f) d (setStatic N f o)).1]
      cases f with
      | none => simp at hf
      | some g => exact fmt_convert g _
  obtain ⟨o', ho, hf⟩ := hu
  constructor
  · rw [← C55_operator f d o t, ho, dot_getMatvecs, dot_simple]
    have : o'.getMatvecs.ham = o'.ham := by
      unfold Obj.getMatvecs Obj.ham
      simp only [List.map_map]
      rfl
    rw [this]
  · intro g hg
    rw [ho]
    subst hg
    exact hf rfl

/-- C55, part: with the same sparse format for both parts, every part gets it.
Missing: different formats for the two parts, which are ignored or raise (`C55_string_fails`, `C55_string_raises`). -/
theorem C55_formats_partial (f : Fmt) (hf : f ≠ .dense) (o : Obj T R K) :
    (update N (some f) (.str f) o).2 = false ∧ fmtOf (update N (some f) (.str f) o).1.static = f ∧
      ∀ e ∈ (update N (some f) (.str f) o).1.dynamic, fmtOf e.mat = f := by
  have hc : constructor (some f) = some f := by simp [constructor, hf]
  have hm : o.dynamic.mapM (strEntry N (some f) f) = some (o.dynamic.map fun e => { e with mat := convert N f e.mat }) :=
    mapM_some _ _ _ fun e _ => by
      rw [strEntry, if_neg (by tauto)]
      rfl
  have : setDynamic N (some f) (.str f) (setStatic N (some f) o) =
      (⟨convert N f o.static, o.routine, o.dynamic.map fun e => { e with mat := convert N f e.mat }⟩, false) := by
    unfold setDynamic setStatic
    simp only
    rw [hm]
    rfl
  unfold update
  rw [hc, this]
  refine ⟨rfl, fmt_convert f _, fun e he => ?_⟩
  simp only [Bool.false_eq_true, if_false, Obj.getMatvecs, List.map_map, List.mem_map, Function.comp] at he
  obtain ⟨e', _, rfl⟩ := he
  exact fmt_convert f _

/-- C55 fails for a dictionary of formats, the documented way to choose them: it is ignored. -/
theorem C55_dict_ignored (f : Option Fmt) (l : List (K × Fmt)) (o : Obj T R K) : update N f (.dict l) o = update N f .none o := rfl

/-- C55 fails for a string: the time-dependent matrices get the format of the static part instead of the requested one. -/
theorem C55_string_fails (f g : Fmt) (hf : f ≠ .dense) (o : Obj T R K) (hs : ∀ e ∈ o.dynamic, e.mat.isDense = false) :
    (update N (some f) (.str g) o).2 = false ∧ ∀ e ∈ (update N (some f) (.str g) o).1.dynamic, fmtOf e.mat = f := by
  have hc : constructor (some f) = some f := by simp [constructor, hf]
  have hm : o.dynamic.mapM (strEntry N (some f) g) = some (o.dynamic.map fun e => { e with mat := convert N f e.mat }) :=
    mapM_some _ _ _ fun e he => by
      rw [strEntry, if_neg (by rw [hs e he]; simp)]
      rfl
  have : setDynamic N (some f) (.str g) (setStatic N (some f) o) =
      (⟨convert N f o.static, o.routine, o.dynamic.map fun e => { e with mat := convert N f e.mat }⟩, false) := by
    unfold setDynamic setStatic
    simp only
    rw [hm]
    rfl
  unfold update
  rw [hc, this]
  refine ⟨rfl, fun e he => ?_⟩
  simp only [Bool.false_eq_true, if_false, Obj.getMatvecs, List.map_map, List.mem_map, Function.comp] at he
  obtain ⟨e', _, rfl⟩ := he
  exact fmt_convert f _

/-- C55 fails for a string without a sparse format for the static part: the call raises for every driven operator with
sparse matrices. -/
theorem C55_string_raises (f : Option Fmt) (hf : f = none ∨ f = some .dense) (g : Fmt) (o : Obj T R K) (e : Entry T R K)
    (l : List (Entry T R K)) (ho : o.dynamic = e :: l) (he : e.mat.isDense = false) : (update N f (.str g) o).2 = true := by
  have hc : constructor f = none := by rcases hf with rfl | rfl <;> rfl
  have hm : (setStatic N f o).dynamic.mapM (strEntry N none g) = none := by
    rw [(setStatic_static f o).2, ho, List.mapM_cons, strEntry, if_neg (by rw [he]; simp)]
    rfl
  unfold update
  simp only
  rw [hc, show setDynamic N none (.str g) (setStatic N f o) = (setStatic N f o, true) from by unfold setDynamic; simp only; rw [hm]; rfl]
  rfl

/-- C55 fails after an exception: if the static part is stored in CSR format, `"csc"` is requested for it, and the name of
a time-dependent part is not found, then the call raises and from then on products use the transposed static matrix. -/
theorem C55_exception_fails (A : Compressed R) (d : List (Entry T R K)) (g : Fmt) (k : K) (hk : ∀ e ∈ d, e.key ≠ k)
    (V : Matrix (Fin N) κ R) :
    (update N (some .csc) (.list [(g, k)]) ⟨.csr A, .csr, d⟩).2 = true ∧
      dotInto N (update N (some .csc) (.list [(g, k)]) ⟨.csr A, .csr, d⟩).1.routine
          (update N (some .csc) (.list [(g, k)]) ⟨.csr A, .csr, d⟩).1.static V true 1 0 =
        some (((Stored.csr A).mat N).transpose * V) := by
  have hl : listEntry N (convert N .csc (.csr A)) d g k = none := by
    unfold listEntry
    rw [if_pos]
    rw [List.any_eq_false]
    intro e he
    simpa using hk e he
  have hu : update N (some .csc) (.list [(g, k)]) (⟨.csr A, .csr, d⟩ : Obj T R K) = (⟨convert N .csc (.csr A), .csr, d⟩, true) := by
    unfold update setDynamic setStatic
    simp only [listLoop, hl, Option.elim]
    rfl
  rw [hu]
  refine ⟨rfl, ?_⟩
  rw [dotInto_read (E := csrEntry (compress N fun i j => csrEntry A j i)) rfl]
  simp only [if_true, zero_add, one_smul]
  congr 2
  ext i j
  exact csr_compress _ j.isLt

/-- An operator `sigma_z + t sigma_x`, both parts in CSR format, for which the hypotheses hold. -/
example : let o : Obj ℤ ℤ Nat := ⟨.csr ⟨fun k => k, fun k => k, fun k => if k = 0 then 1 else -1⟩, .csr,
      [⟨0, fun t => t, .csr ⟨fun k => k, fun k => 1 - k, fun _ => 1⟩, .csr⟩]⟩
    (update 2 (some .csc) (.list [(.dia, 0)]) o).2 = false ∧ (∀ e ∈ o.dynamic, e.mat.isDense = false) ∧ (∀ e ∈ o.dynamic, e.key ≠ 1) ∧
      toMatrix 2 o.ham 5 = !![1, 5; 5, -1] := by
  refine ⟨rfl, by simp [Stored.isDense], by simp, ?_⟩
  ext i j
  fin_cases i <;> fin_cases j <;> decide

end Props
