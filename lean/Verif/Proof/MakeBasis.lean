import Verif.Spec.Listing
import Verif.Model.MakeBasis
import Mathlib.Data.List.Perm.Basic
import Mathlib.Data.List.Nodup
import Mathlib.Data.List.Range
import Mathlib.Tactic.Ring
namespace Proof.MakeBasis
open Spec Model Model.Word

/-- states visited by the loop -/
def visit (next : Nat → Nat → Nat) : Nat → Nat → Nat → List Nat
  | 0, _, _ => []
  | n + 1, s, nns => s :: visit next n (next s nns) (nns + 1)

theorem kept_cons (check : Check) (s : Nat) (l : List Nat) :
    kept check (s :: l) = (keep check s).toList ++ kept check l := by
  unfold kept keep
  rw [List.filterMap_cons]
  cases check s with
  | none => simp
  | some v => by_cases h : v > 0 <;> simp [h]

theorem kept_nil (check : Check) : kept check [] = [] := rfl

theorem kept_append (check : Check) (l l' : List Nat) :
    kept check (l ++ l') = kept check l ++ kept check l' := by
  simp [kept]

theorem sequentialLoop_eq (check : Check) (next : Nat → Nat → Nat) (mem : Nat) :
    ∀ (MAX s nns : Nat) (out : List (Nat × Int)),
    sequentialLoop check next mem MAX s nns out
      = if 0 < MAX ∧ mem ≤ out.length + (kept check (visit next MAX s nns).dropLast).length
        then .insufficient else .ok (out ++ kept check (visit next MAX s nns)).reverse := by
  intro MAX
  induction MAX with
  | zero => intro s nns out; simp [sequentialLoop, visit, kept_nil]
  | succ n ih =>
    intro s nns out
    rw [sequentialLoop]
    by_cases h : out.length ≥ mem
    · rw [if_pos h, if_pos ⟨Nat.succ_pos _, by omega⟩]
    · rw [if_neg h]
      have hd : (kept check (visit next (n + 1) s nns).dropLast).length
          = if n = 0 then 0 else (keep check s).toList.length
              + (kept check (visit next n (next s nns) (nns + 1)).dropLast).length := by
        cases n with
        | zero => simp [visit, kept_nil]
        | succ m =>
          rw [visit, visit, List.dropLast_cons_of_ne_nil (by simp), kept_cons, List.length_append]
          simp
      rw [visit, kept_cons]
      rw [visit] at hd
      rw [hd]
      cases hk : keep check s with
      | none =>
        simp only [ih, Option.toList_none, List.nil_append, List.length_nil]
        by_cases hn : n = 0
        · subst hn; simp; omega
        · simp [hn, Nat.pos_of_ne_zero hn]
      | some e =>
        simp only [ih, Option.toList_some, List.length_singleton, List.length_append]
        rw [if_pos (by omega)]
        by_cases hn : n = 0
        · subst hn; simp; omega
        · have e1 : out.length + 1 + (kept check (visit next n (next s nns) (nns + 1)).dropLast).length
            = out.length + (1 + (kept check (visit next n (next s nns) (nns + 1)).dropLast).length) := by omega
          simp [hn, Nat.pos_of_ne_zero hn, e1]

/-- the i-th private state -/
def stateAt (next : Nat → Nat → Nat) (s : Nat) : Nat → Nat × Nat
  | 0 => (s, 0)
  | i + 1 => (next (stateAt next s i).1 (stateAt next s i).2, (stateAt next s i).2 + 1)

theorem visit_eq (next : Nat → Nat → Nat) (s : Nat) : ∀ n i,
    visit next n (stateAt next s i).1 (stateAt next s i).2
      = (List.range' i n).map (fun j => (stateAt next s j).1) := by
  intro n
  induction n with
  | zero => intro i; rfl
  | succ n ih =>
    intro i
    rw [visit, List.range'_succ, List.map_cons]
    congr 1
    exact ih (i + 1)

theorem advance_eq (next : Nat → Nat → Nat) (s : Nat) : ∀ k i,
    advance next k (stateAt next s i) = stateAt next s (i + k) := by
  intro k
  induction k with
  | zero => intro i; rfl
  | succ k ih =>
    intro i
    rw [advance]
    have := ih (i + 1)
    rw [show i + (k + 1) = i + 1 + k by omega, ← this]
    rfl

/-- indices handled by a thread starting at `i` with stride `T` -/
def strided (T MAX : Nat) : Nat → Nat → List Nat
  | 0, _ => []
  | fuel + 1, i => if i < MAX then i :: strided T MAX fuel (i + T) else []

theorem threadLoop_eq (check : Check) (st : Nat → Nat × Nat) (step : Nat × Nat → Nat × Nat)
    (T MAX : Nat) (hst : ∀ i, i < MAX → step (st i) = st (i + T)) :
    ∀ (fuel i : Nat), threadLoop check step T fuel ((MAX : Int) - i) (st i)
      = kept check ((strided T MAX fuel i).map (fun j => (st j).1)) := by
  intro fuel
  induction fuel with
  | zero => intro i; rfl
  | succ f ih =>
    intro i
    rw [threadLoop, strided]
    by_cases h : i < MAX
    · rw [if_pos (by omega), if_pos h, List.map_cons, kept_cons]
      congr 1
      rw [hst i h, ← ih (i + T)]
      congr 1
      push_cast; omega
    · rw [if_neg (by omega), if_neg h]; rfl

theorem mem_strided (T MAX : Nat) (hT : 0 < T) : ∀ fuel i x, MAX ≤ i + fuel * T →
    (x ∈ strided T MAX fuel i ↔ i ≤ x ∧ x < MAX ∧ x % T = i % T) := by
  intro fuel
  induction fuel with
  | zero => intro i x h; simp [strided]; omega
  | succ f ih =>
    intro i x h
    rw [strided]
    by_cases hi : i < MAX
    · rw [if_pos hi, List.mem_cons, ih (i + T) x (by rw [Nat.succ_mul] at h; omega)]
      constructor
      · rintro (rfl | ⟨h1, h2, h3⟩)
        · exact ⟨Nat.le_refl _, hi, rfl⟩
        · exact ⟨by omega, h2, by rw [h3]; exact Nat.add_mod_right _ _⟩
      · rintro ⟨h1, h2, h3⟩
        by_cases hx : x = i
        · left; exact hx
        · right
          refine ⟨?_, h2, by rw [h3]; exact (Nat.add_mod_right _ _).symm⟩
          have hd : (x - i) % T = 0 := Nat.sub_mod_eq_zero_of_mod_eq h3
          have : T ≤ x - i := Nat.le_of_dvd (by omega) (Nat.dvd_of_mod_eq_zero hd)
          omega
    · rw [if_neg hi]; simp; omega

theorem nodup_strided (T MAX : Nat) (hT : 0 < T) : ∀ fuel i, (strided T MAX fuel i).Nodup := by
  intro fuel
  induction fuel with
  | zero => intro i; exact List.nodup_nil
  | succ f ih =>
    intro i
    rw [strided]
    split
    · rw [List.nodup_cons]
      refine ⟨?_, ih _⟩
      have : ∀ fuel j x, x ∈ strided T MAX fuel j → j ≤ x := by
        intro fuel
        induction fuel with
        | zero => intro j x h; simp [strided] at h
        | succ f ih =>
          intro j x h
          rw [strided] at h
          split at h
          · rcases List.mem_cons.1 h with rfl | h
            · exact Nat.le_refl _
            · have := ih _ _ h; omega
          · simp at h
      intro h
      have := this _ _ _ h
      omega
    · exact List.nodup_nil

/-- the threads share the indices out: every index once -/
theorem strided_perm (T MAX : Nat) (hT : 0 < T) :
    ((List.range T).map (strided T MAX MAX)).flatten.Perm (List.range MAX) := by
  have hfuel : ∀ i, MAX ≤ i + MAX * T := fun i =>
    Nat.le_trans (Nat.le_mul_of_pos_right _ hT) (Nat.le_add_left _ _)
  rw [List.perm_ext_iff_of_nodup]
  · intro x
    simp only [List.mem_flatten, List.mem_map, List.mem_range]
    constructor
    · rintro ⟨l, ⟨i, hi, rfl⟩, hx⟩
      exact ((mem_strided T MAX hT MAX i x (hfuel i)).1 hx).2.1
    · intro hx
      refine ⟨_, ⟨x % T, Nat.mod_lt _ hT, rfl⟩, ?_⟩
      rw [mem_strided T MAX hT MAX _ x (hfuel _)]
      exact ⟨Nat.mod_le _ _, hx, by rw [Nat.mod_mod]⟩
  · rw [List.nodup_flatten]
    refine ⟨?_, ?_⟩
    · intro l hl
      simp only [List.mem_map] at hl
      obtain ⟨i, _, rfl⟩ := hl
      exact nodup_strided T MAX hT MAX i
    · rw [List.pairwise_map]
      refine List.Pairwise.imp_of_mem ?_ (List.pairwise_lt_range (n := T))
      intro a b ha hb hab x hxa hxb
      have h1 := (mem_strided T MAX hT MAX a x (hfuel a)).1 hxa
      have h2 := (mem_strided T MAX hT MAX b x (hfuel b)).1 hxb
      rw [List.mem_range] at ha hb
      have h3 := h1.2.2
      have h4 := h2.2.2
      rw [Nat.mod_eq_of_lt ha] at h3
      rw [Nat.mod_eq_of_lt hb] at h4
      omega
  · exact List.nodup_range

theorem kept_flatten (check : Check) (L : List (List Nat)) :
    (L.map (kept check)).flatten = kept check L.flatten := by
  induction L with
  | nil => rfl
  | cons a L ih => rw [List.map_cons, List.flatten_cons, ih, List.flatten_cons, kept_append]

/-! writes -/

theorem runWrites_length (ws : List (Nat × (Nat × Int))) : ∀ a, (runWrites a ws).length = a.length := by
  induction ws with
  | nil => intro a; rfl
  | cons w ws ih => intro a; obtain ⟨j, e⟩ := w; rw [runWrites, ih, List.length_set]

/-- writes to distinct places may be reordered freely -/
theorem runWrites_perm {ws ws' : List (Nat × (Nat × Int))} (h : ws.Perm ws') :
    (ws.map Prod.fst).Nodup → ∀ a, runWrites a ws = runWrites a ws' := by
  induction h with
  | nil => intro _ a; rfl
  | cons x _ ih =>
    intro hn a; obtain ⟨j, e⟩ := x
    rw [List.map_cons, List.nodup_cons] at hn
    rw [runWrites, runWrites, ih hn.2]
  | swap x y l =>
    intro hn a; obtain ⟨j, e⟩ := x; obtain ⟨j', e'⟩ := y
    simp only [runWrites]
    rw [List.set_comm]
    intro hj; subst hj
    simp at hn
  | trans h1 _ ih1 ih2 =>
    intro hn a
    rw [ih1 hn, ih2 ((h1.map _).nodup_iff.1 hn)]

theorem masterWrites_fst (bs : List (List (Nat × Int))) : ∀ start,
    (masterWrites start bs).map Prod.fst = List.range' start (bs.map List.length).sum := by
  induction bs with
  | nil => intro s; rfl
  | cons b bs ih =>
    intro s
    rw [masterWrites, List.map_append, ih, List.map_fst_zip (by simp), List.map_cons, List.sum_cons,
      List.range'_append_1]

theorem masterWrites_snd (bs : List (List (Nat × Int))) : ∀ start,
    (masterWrites start bs).map Prod.snd = bs.flatten := by
  induction bs with
  | nil => intro s; rfl
  | cons b bs ih =>
    intro s
    rw [masterWrites, List.map_append, ih, List.map_snd_zip (by simp), List.flatten_cons]

/-- consecutive writes fill a prefix -/
theorem runWrites_consec : ∀ (l : List (Nat × Int)) (pre rest : List (Nat × Int)), l.length ≤ rest.length →
    runWrites (pre ++ rest) ((List.range' pre.length l.length).zip l) = pre ++ l ++ rest.drop l.length := by
  intro l
  induction l with
  | nil => intro pre rest _; simp [runWrites]
  | cons x l ih =>
    intro pre rest h
    cases rest with
    | nil => simp at h
    | cons r rest =>
      rw [List.length_cons, List.range'_succ, List.zip_cons_cons, runWrites]
      have : (pre ++ r :: rest).set pre.length x = (pre ++ [x]) ++ rest := by
        rw [List.set_append_right _ _ (Nat.le_refl _)]; simp
      rw [this]
      have := ih (pre ++ [x]) rest (by simpa using h)
      rw [List.length_append, List.length_singleton] at this
      rw [this]; simp

theorem zip_fst_snd (l : List (Nat × (Nat × Int))) : (l.map Prod.fst).zip (l.map Prod.snd) = l := by
  induction l with
  | nil => rfl
  | cons a l ih => simp [ih]

theorem collect_eq (sort : List (Nat × Int) → List (Nat × Int)) (mem : Nat)
    (blocks : List (List (Nat × Int))) (writes : List (Nat × (Nat × Int)))
    (hw : writes.Perm (masterWrites 0 blocks)) :
    collect sort mem blocks writes
      = if mem < blocks.flatten.length then .insufficient else .ok (sort blocks.flatten) := by
  unfold collect
  have hlen : (blocks.map List.length).sum = blocks.flatten.length := by
    rw [List.length_flatten]
  simp only [hlen]
  by_cases h : mem < blocks.flatten.length
  · rw [if_pos (by omega), if_pos h]
  · rw [if_neg (by omega), if_neg h]
    have hf := masterWrites_fst blocks 0
    have hs := masterWrites_snd blocks 0
    rw [hlen] at hf
    have hno : writes.any (fun w => w.1 ≥ mem) = false := by
      rw [List.any_eq_false]
      intro w hwm
      have h1 := hw.mem_iff.1 hwm
      have h2 : w.1 ∈ (masterWrites 0 blocks).map Prod.fst := List.mem_map_of_mem h1
      rw [hf] at h2
      simp at h2
      simp; omega
    have hnd : (writes.map Prod.fst).Nodup := by
      rw [(hw.map _).nodup_iff, hf]; exact List.nodup_range'
    rw [hno, runWrites_perm hw hnd, ← zip_fst_snd (masterWrites 0 blocks), hf, hs]
    have := runWrites_consec blocks.flatten [] (List.replicate mem (0, 0)) (by simp; omega)
    simp only [List.nil_append, List.length_nil] at this
    rw [this]
    simp

/-- a descending arrangement of an increasing list is its reverse -/
theorem sort_unique (sort : List (Nat × Int) → List (Nat × Int)) (hs : SortsDescending sort)
    (l l' : List (Nat × Int)) (hp : l.Perm l') (hinc : l'.Pairwise (fun a b => a.1 < b.1)) :
    sort l = l'.reverse := by
  obtain ⟨h1, h2⟩ := hs l
  have hperm : (sort l).Perm l'.reverse := (h1.trans hp).trans (List.reverse_perm _).symm
  refine List.Perm.eq_of_pairwise (le := fun a b => b.1 ≤ a.1) ?_ h2 ?_ hperm
  · intro a b ha hb hab hba
    have hfst : a.1 = b.1 := Nat.le_antisymm hba hab
    have ha' : a ∈ l' := List.mem_reverse.1 (hperm.mem_iff.1 ha)
    have hb' : b ∈ l' := List.mem_reverse.1 hb
    have hnd : (l'.map Prod.fst).Nodup := by
      rw [List.Nodup, List.pairwise_map]
      exact hinc.imp (fun h => Nat.ne_of_lt h)
    exact List.inj_on_of_nodup_map hnd ha' hb' hfst
  · rw [List.pairwise_reverse]
    exact hinc.imp (fun h => Nat.le_of_lt h)

theorem kept_increasing (check : Check) (l : List Nat) (h : l.Pairwise (· < ·)) :
    (kept check l).Pairwise (fun a b => a.1 < b.1) := by
  unfold kept
  rw [List.pairwise_filterMap]
  refine h.imp ?_
  intro a b hab x hx y hy
  rw [Option.bind_eq_some_iff] at hx hy
  obtain ⟨v, _, hv⟩ := hx
  obtain ⟨u, _, hu⟩ := hy
  split at hv
  · split at hu
    · simp only [Option.some.injEq] at hv hu
      rw [← hv, ← hu]; exact hab
    · simp at hu
  · simp at hv

theorem flatten_map_perm {α β : Type} (f : α → List β) (l : List (List α)) :
    (l.map (fun x => x.flatMap f)).flatten = l.flatten.flatMap f := by
  induction l with
  | nil => rfl
  | cons a l ih => simp [ih]

theorem blocks_perm (check : Check) (st : Nat → Nat × Nat) (T MAX : Nat) (hT : 0 < T) :
    ((List.range T).map (fun t => kept check ((strided T MAX MAX t).map (fun j => (st j).1)))).flatten.Perm
      (kept check ((List.range MAX).map (fun j => (st j).1))) := by
  have h1 : (List.range T).map (fun t => kept check ((strided T MAX MAX t).map (fun j => (st j).1)))
      = (((List.range T).map (strided T MAX MAX)).map (List.map (fun j => (st j).1))).map (kept check) := by
    simp [List.map_map, Function.comp_def]
  rw [h1, kept_flatten, ← List.map_flatten]
  unfold kept
  exact ((strided_perm T MAX hT).map _).filterMap _

theorem parallel_eq (sort : List (Nat × Int) → List (Nat × Int)) (hs : SortsDescending sort)
    (check : Check) (st : Nat → Nat × Nat) (T MAX mem : Nat) (hT : 0 < T)
    (hinc : ((List.range MAX).map (fun j => (st j).1)).Pairwise (· < ·))
    (blocks : List (List (Nat × Int)))
    (hb : blocks = (List.range T).map (fun t => kept check ((strided T MAX MAX t).map (fun j => (st j).1))))
    (writes : List (Nat × (Nat × Int))) (hw : writes.Perm (masterWrites 0 blocks)) :
    collect sort mem blocks writes
      = if mem < (kept check ((List.range MAX).map (fun j => (st j).1))).length then .insufficient
        else .ok (kept check ((List.range MAX).map (fun j => (st j).1))).reverse := by
  have hp := blocks_perm check st T MAX hT
  rw [← hb] at hp
  rw [collect_eq sort mem blocks writes hw, hp.length_eq,
    sort_unique sort hs _ _ hp (kept_increasing check _ hinc)]

/-- the private state sequence of the full-space loop -/
theorem threadBlock_eq (w : Nat) (check : Check) (MAX T t : Nat) (hM : MAX ≤ 2 ^ w) :
    threadBlock w check MAX T t = kept check ((strided T MAX MAX t).map (fun j => ((j, 0) : Nat × Nat).1)) := by
  unfold threadBlock
  -- the word `s` equals the index as long as it is below MAX
  have key : ∀ (fuel i : Nat), threadLoop check (fun σ => (add w σ.1 T, σ.2)) T fuel ((MAX : Int) - i) (i % 2 ^ w, 0)
      = kept check ((strided T MAX fuel i).map (fun j => ((j, 0) : Nat × Nat).1)) := by
    intro fuel
    induction fuel with
    | zero => intro i; rfl
    | succ f ih =>
      intro i
      rw [threadLoop, strided]
      by_cases h : i < MAX
      · have hi : i % 2 ^ w = i := Nat.mod_eq_of_lt (by omega)
        rw [if_pos (by omega), if_pos h, List.map_cons, kept_cons]
        simp only [hi]
        congr 1
        have := ih (i + T)
        rw [← this]
        simp only [add]
        congr 1
        push_cast; omega
      · rw [if_neg (by omega), if_neg h]; rfl
  exact key MAX t

theorem visit_full (w MAX : Nat) (hM : MAX ≤ 2 ^ w) :
    visit (fun s _ => add w s 1) MAX 0 0 = List.range MAX := by
  have key : ∀ n i nns, i + n ≤ 2 ^ w → visit (fun s _ => add w s 1) n i nns = List.range' i n := by
    intro n
    induction n with
    | zero => intro i nns _; rfl
    | succ n ih =>
      intro i nns h
      rw [visit, List.range'_succ]
      congr 1
      cases n with
      | zero => rfl
      | succ n =>
        have : add w i 1 = i + 1 := Nat.mod_eq_of_lt (by omega)
        rw [this]
        exact ih (i + 1) _ (by omega)
  rw [List.range_eq_range']
  exact key MAX 0 0 (by omega)

theorem makeBasisSequential_eq (w : Nat) (check : Check) (MAX mem : Nat) (hM : MAX ≤ 2 ^ w) :
    makeBasisSequential w check MAX mem
      = if 0 < MAX ∧ mem ≤ (kept check (List.range MAX).dropLast).length
        then .insufficient else .ok (kept check (List.range MAX)).reverse := by
  rw [makeBasisSequential, sequentialLoop_eq, visit_full w MAX hM]
  simp

theorem makeBasisParallel_eq (w : Nat) (sort : List (Nat × Int) → List (Nat × Int))
    (hs : SortsDescending sort) (check : Check) (MAX mem T : Nat) (hT : 0 < T) (hM : MAX ≤ 2 ^ w)
    (writes : List (Nat × (Nat × Int)))
    (hw : writes.Perm (masterWrites 0 ((List.range T).map (threadBlock w check MAX T)))) :
    makeBasisParallel w sort check MAX mem T writes
      = if mem < (kept check (List.range MAX)).length then .insufficient
        else .ok (kept check (List.range MAX)).reverse := by
  have h := parallel_eq sort hs check (fun j => (j, 0)) T MAX mem hT
    (by simpa using List.pairwise_lt_range (n := MAX)) _
    (List.map_congr_left (fun t _ => threadBlock_eq w check MAX T t hM)) writes hw
  simpa [makeBasisParallel] using h

theorem makeBasisPconSequential_eq (next : Nat → Nat → Nat) (check : Check) (MAX mem s : Nat) :
    makeBasisPconSequential next check MAX mem s
      = if 0 < MAX ∧ mem ≤ (kept check (visit next MAX s 0).dropLast).length
        then .insufficient else .ok (kept check (visit next MAX s 0)).reverse := by
  rw [makeBasisPconSequential, sequentialLoop_eq]
  simp

theorem visit_stateAt (next : Nat → Nat → Nat) (MAX s : Nat) :
    visit next MAX s 0 = (List.range MAX).map (fun j => (stateAt next s j).1) := by
  have := visit_eq next s MAX 0
  rw [List.range_eq_range']
  exact this

theorem makeBasisPconParallel_eq (next : Nat → Nat → Nat) (sort : List (Nat × Int) → List (Nat × Int))
    (hs : SortsDescending sort) (check : Check) (MAX mem s T : Nat) (hT : 0 < T)
    (hinc : (visit next MAX s 0).Pairwise (· < ·))
    (writes : List (Nat × (Nat × Int)))
    (hw : writes.Perm (masterWrites 0 ((List.range T).map (threadBlockPcon next check MAX T s)))) :
    makeBasisPconParallel next sort check MAX mem s T writes
      = if mem < (kept check (visit next MAX s 0)).length then .insufficient
        else .ok (kept check (visit next MAX s 0)).reverse := by
  have hb : (List.range T).map (threadBlockPcon next check MAX T s)
      = (List.range T).map (fun t => kept check ((strided T MAX MAX t).map (fun j => (stateAt next s j).1))) := by
    apply List.map_congr_left
    intro t _
    unfold threadBlockPcon
    have h0 := advance_eq next s t 0
    rw [Nat.zero_add] at h0
    have : ((s, 0) : Nat × Nat) = stateAt next s 0 := rfl
    rw [this, h0]
    exact threadLoop_eq check (stateAt next s) (advance next T) T MAX
      (fun i _ => advance_eq next s T i) MAX t
  rw [visit_stateAt] at hinc ⊢
  exact parallel_eq sort hs check (stateAt next s) T MAX mem hT hinc _ hb writes hw

end Proof.MakeBasis
