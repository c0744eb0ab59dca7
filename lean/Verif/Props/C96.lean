import Verif.Model.GeneralInit
import Verif.Props.C94

/-!
C96: a basis of the general classes uses every symmetry the caller gives, whatever the order and whether maps act trivially.
-/

namespace Props
open Model Spec Proof.Symmetry Proof.Assembly Model.GeneralInit

/-- The symmetries of the caller: keywords that are `None` do not count. -/
def wanted (blocks : List Block) : List Generator := blocks.filterMap (·.2)

theorem given_wanted (blocks : List Block) : (given blocks).map (·.2) = wanted blocks := by
  unfold given wanted
  rw [List.map_filterMap]
  congr 1
  funext b
  cases b.2 <;> rfl

theorem exponents_identity (y : Generator) (ys : List Generator) (hy : y.per = 1) : exponents (y :: ys) = (exponents ys).map (0 :: ·) := by
  rw [exponents, hy, List.flatMap_def]
  induction exponents ys with
  | nil => rfl
  | cons a l ih => simpa using ih

/-- A symmetry of period one does not change projections. -/
theorem projection_identity (y : Generator) (ys : List Generator) (hy : y.per = 1) (s t : ℕ) : projection (y :: ys) s t = projection ys s t := by
  unfold projection
  rw [exponents_identity y ys hy, List.map_map]
  congr 1
  refine List.map_congr_left fun cs _ => ?_
  simp only [Function.comp_apply, word, Function.iterate_zero, id, character, angle, Nat.cast_zero, mul_zero, zero_add]

theorem related_closed {S : ℕ → Prop} {ys : List Generator} (h : Acts S ys) {s t : ℕ} (hs : S s) (hr : Related ys s t) : S t := by
  induction hr with
  | refl => exact hs
  | tail _ hbc ih =>
    obtain ⟨y, hy, rfl⟩ := hbc
    exact h.closed y hy _ ih

/-- A symmetry of period one does not relate other states. -/
theorem related_identity {S : ℕ → Prop} (y : Generator) (ys : List Generator) (h : Acts S (y :: ys)) (hy : y.per = 1) {s : ℕ} (hs : S s) (t : ℕ) :
    Related (y :: ys) s t ↔ Related ys s t := by
  constructor
  · intro hr
    have key : Related ys s t ∧ S t := by
      induction hr with
      | refl => exact ⟨Relation.ReflTransGen.refl, hs⟩
      | tail _ hbc ih =>
        obtain ⟨z, hz, rfl⟩ := hbc
        refine ⟨?_, h.closed z hz _ ih.2⟩
        rcases List.mem_cons.1 hz with rfl | hz
        · have := h.period z (by simp) _ ih.2
          rw [hy, Function.iterate_one] at this
          have e := congrArg Prod.fst this
          simp only [Generator.U] at e
          rw [e]
          exact ih.1
        · exact ih.1.tail ⟨z, hz, rfl⟩
    exact key.1
  · exact fun hr => Relation.ReflTransGen.mono (r := fun a b => ∃ y ∈ ys, b = y.img a) (fun _ _ ⟨z, hz, e⟩ => ⟨z, by simp [hz], e⟩) _ _ hr

/-- Lists of symmetries with the same relations and projections have the same reduced bases. -/
theorem reduced_congr {S : ℕ → Prop} {ys zs : List Generator} (hr : ∀ s t, S s → (Related ys s t ↔ Related zs s t))
    (hp : ∀ s t, S s → projection ys s t = projection zs s t) (l : List (ℕ × ℤ)) : ReducedBasis S ys l ↔ ReducedBasis S zs l := by
  have key : ∀ s (n : ℤ), (S s ∧ (∀ t, Related ys s t → t ≤ s) ∧ (∃ t, projection ys s t ≠ 0) ∧ projection ys s s = n) ↔
      (S s ∧ (∀ t, Related zs s t → t ≤ s) ∧ (∃ t, projection zs s t ≠ 0) ∧ projection zs s s = n) := by
    intro s n
    refine and_congr_right fun hs => ?_
    rw [hp s s hs]
    refine and_congr (forall_congr' fun t => by rw [hr s t hs]) (and_congr_left fun _ => exists_congr fun t => by rw [hp s t hs])
  constructor
  · intro h
    exact ⟨h.sorted, fun s n => (h.mem s n).trans (key s n)⟩
  · intro h
    exact ⟨h.sorted, fun s n => (h.mem s n).trans (key s n).symm⟩

theorem acts_perm {S : ℕ → Prop} {ys zs : List Generator} (h : Acts S ys) (hsub : ∀ z ∈ zs, z ∈ ys) : Acts S zs where
  per_pos y hy := h.per_pos y (hsub y hy)
  closed y hy := h.closed y (hsub y hy)
  sign y hy := h.sign y (hsub y hy)
  period y hy := h.period y (hsub y hy)
  commute y hy z hz := h.commute y (hsub y hy) z (hsub z hz)

/-- The order of the maps: by the period, or as the caller says. -/
theorem sorted_perm (order : Option (List String)) (items : List (String × Generator)) (hnd : (items.map (·.1)).Nodup)
    (horder : ∀ names, order = some names → names.Perm (items.map (·.1))) :
    ∃ l, sortedItems order items = some l ∧ l.Perm items := by
  cases order with
  | none => exact ⟨_, rfl, List.perm_insertionSort _ _⟩
  | some names =>
    have hp := horder names rfl
    unfold sortedItems
    have h1 : (items.all (fun b => b.1 ∈ names) && names.all (fun n => n ∈ items.map (·.1))) = true := by
      rw [Bool.and_eq_true, List.all_eq_true, List.all_eq_true]
      refine ⟨fun b hb => ?_, fun n hn => ?_⟩
      · exact decide_eq_true (hp.symm.subset (List.mem_map_of_mem hb))
      · exact decide_eq_true (hp.subset hn)
    simp only [h1, if_true]
    -- looking up the names in a permuted order
    have look : ∀ (ns : List String), (∀ n ∈ ns, n ∈ items.map (·.1)) →
        ∃ l : List (String × Generator), ns.mapM (fun n => items.find? fun b => b.1 = n) = some l ∧ l.map (·.1) = ns ∧ ∀ b ∈ l, b ∈ items := by
      intro ns
      induction ns with
      | nil => exact fun _ => ⟨[], rfl, rfl, by simp⟩
      | cons n ns ih =>
        intro hn
        obtain ⟨l, e1, e2, e3⟩ := ih fun m hm => hn m (by simp [hm])
        obtain ⟨b, hb, hbn⟩ := List.mem_map.1 (hn n (by simp))
        cases hf : items.find? (fun b => b.1 = n) with
        | none =>
          have := List.find?_eq_none.1 hf b hb
          simp [hbn] at this
        | some c =>
          have hc := List.find?_some hf
          have hcm := List.mem_of_find?_eq_some hf
          refine ⟨c :: l, ?_, ?_, ?_⟩
          · rw [List.mapM_cons, hf, e1]
            rfl
          · rw [List.map_cons, e2]
            simp only [decide_eq_true_eq] at hc
            rw [hc]
          · intro x hx
            rcases List.mem_cons.1 hx with rfl | hx
            · exact hcm
            · exact e3 x hx
    obtain ⟨l, e1, e2, e3⟩ := look names.reverse fun n hn => hp.subset (List.mem_reverse.1 hn)
    refine ⟨l, e1, ?_⟩
    have hpl : (l.map (·.1)).Perm (items.map (·.1)) := by
      rw [e2]
      exact (List.reverse_perm _).trans hp
    have hndl : (l.map (·.1)).Nodup := hpl.nodup_iff.2 hnd
    have inj : ∀ a ∈ items, ∀ b ∈ items, a.1 = b.1 → a = b := fun a ha b hb e => List.inj_on_of_nodup_map hnd ha hb e
    refine (List.perm_ext_iff_of_nodup (List.Nodup.of_map _ hndl) (List.Nodup.of_map _ hnd)).2 fun a => ⟨e3 a, fun ha => ?_⟩
    obtain ⟨b, hb, e⟩ := List.mem_map.1 (hpl.symm.subset (List.mem_map_of_mem ha))
    rwa [← inj b (e3 b hb) a ha e]

/-- With at most one identity the loop removes nothing else. -/
theorem pop_identity (ys : List Generator) (h : ys.countP (fun y => y.per == 1) ≤ 1) :
    popLoop (removeIndex ys) ys = some ys ∨ ∃ y rest, y.per = 1 ∧ popLoop (removeIndex ys) ys = some rest ∧ ys.Perm (y :: rest) := by
  by_cases h0 : removeIndex ys = []
  · left
    rw [h0]
    rfl
  right
  obtain ⟨i, rest, he⟩ := List.exists_cons_of_ne_nil h0
  have hmem : ∀ j, j ∈ removeIndex ys → ∃ hj : j < ys.length, (ys[j]).per = 1 := by
    intro j hj
    unfold removeIndex at hj
    rw [List.mem_filter, List.mem_range] at hj
    have hl : j < ys.length := by omega
    refine ⟨hl, ?_⟩
    have := hj.2
    rw [List.getElem?_eq_getElem hl, Option.any_some, beq_iff_eq] at this
    exact this
  obtain ⟨hi, hi1⟩ := hmem i (by rw [he]; simp)
  have hperm : ys.Perm (ys[i] :: ys.eraseIdx i) := (List.getElem_cons_eraseIdx_perm hi).symm
  have hrest : rest = [] := by
    by_contra hr
    obtain ⟨j, r2, he2⟩ := List.exists_cons_of_ne_nil hr
    obtain ⟨hj, hj1⟩ := hmem j (by rw [he, he2]; simp)
    have hnd : (removeIndex ys).Nodup := List.Nodup.filter _ List.nodup_range
    have hij : i ≠ j := by
      rw [he, he2] at hnd
      intro e
      rw [e] at hnd
      simp at hnd
    have hc := hperm.countP_eq (fun y => y.per == 1)
    rw [List.countP_cons, hi1] at hc
    have hin : ys[j] ∈ ys.eraseIdx i := by
      rw [List.mem_eraseIdx_iff_getElem]
      exact ⟨j, hj, Ne.symm hij, rfl⟩
    have : 0 < (ys.eraseIdx i).countP (fun y => y.per == 1) := List.countP_pos_iff.2 ⟨ys[j], hin, by rw [hj1]; rfl⟩
    simp only [beq_self_eq_true, if_true] at hc
    omega
  refine ⟨ys[i], ys.eraseIdx i, hi1, ?_, hperm⟩
  rw [he, hrest, popLoop, if_pos hi, popLoop]

/-- **C96.**  Up to 32 symmetries, in the default order or an order of their names, at most one of them the identity: the basis made with the symmetries
the core is given is the basis of the symmetries of the caller, with the same norms and symmetrised states.
Missing: more than one map that acts trivially (`C96_fails_identities`, `C96_fails_raises`). -/
theorem C96_used_partial (blocks : List Block) (order : Option (List String)) (hnames : ((given blocks).map (·.1)).Nodup)
    (horder : ∀ names, order = some names → names.Perm ((given blocks).map (·.1))) (hlen : (wanted blocks).length ≤ 32)
    (hone : (wanted blocks).countP (fun y => y.per == 1) ≤ 1) (conf : Finset ℕ) (S : ℕ → Prop) (hS : ∀ s, S s → s ∈ conf)
    (hact : Acts (· ∈ conf) (wanted blocks)) :
    ∃ used, symmetries order blocks = some used ∧ Acts (· ∈ conf) used ∧ used.length ≤ 32 ∧
      (∀ l, ReducedBasis S used l ↔ ReducedBasis S (wanted blocks) l) ∧ ∀ s t, S s → symState conf used s t = symState conf (wanted blocks) s t := by
  obtain ⟨l, hl, hp⟩ := sorted_perm order (given blocks) hnames horder
  have hp2 : (l.map (·.2)).Perm (wanted blocks) := by
    rw [← given_wanted]
    exact hp.map _
  have hsym : symmetries order blocks = popLoop (removeIndex (l.map (·.2))) (l.map (·.2)) := by
    unfold symmetries
    have : ¬ (given blocks).length > 32 := by
      rw [← given_wanted, List.length_map] at hlen
      omega
    rw [if_neg this, hl, Option.bind_some]
  have hall : Acts (· ∈ conf) (l.map (·.2)) := acts_perm hact fun z hz => hp2.subset hz
  have hr1 : ∀ s t, Related (l.map (·.2)) s t ↔ Related (wanted blocks) s t := fun s t => ⟨related_perm hp2, related_perm hp2.symm⟩
  have hpr1 : ∀ s t, S s → projection (l.map (·.2)) s t = projection (wanted blocks) s t := fun s t hs => projection_perm hall hp2 s (hS s hs) t
  have sym : ∀ zs : List Generator, (∀ s t, S s → projection zs s t = projection (wanted blocks) s t) →
      ∀ s t, S s → symState conf zs s t = symState conf (wanted blocks) s t := by
    intro zs hz s t hs
    unfold symState
    rw [hz s t hs, Finset.sum_congr rfl fun u _ => by rw [hz s u hs]]
  rcases pop_identity (l.map (·.2)) (by rw [hp2.countP_eq]; exact hone) with e | ⟨y, rest, hy, e, hyp⟩
  · refine ⟨l.map (·.2), by rw [hsym, e], hall, by rw [hp2.length_eq]; exact hlen, reduced_congr (fun s t _ => hr1 s t) hpr1, sym _ hpr1⟩
  · have hyr : (y :: rest).Perm (wanted blocks) := hyp.symm.trans hp2
    have hact' : Acts (· ∈ conf) (y :: rest) := acts_perm hact fun z hz => hyr.subset hz
    have hpr2 : ∀ s t, S s → projection rest s t = projection (wanted blocks) s t := by
      intro s t hs
      rw [← projection_identity y rest hy, projection_perm hact' hyr s (hS s hs) t]
    refine ⟨rest, by rw [hsym, e], acts_perm hact' fun z hz => by simp [hz], ?_, reduced_congr (fun s t hs => ?_) hpr2, sym _ hpr2⟩
    · have := hyr.length_eq
      rw [List.length_cons] at this
      omega
    · rw [← related_identity y rest hact' hy (hS s hs) t]
      exact ⟨related_perm hyr, related_perm hyr.symm⟩

/-- The identity, as the map of a translation or reflection in a direction with a single site. -/
def trivialMap : Generator := ⟨id, fun _ => 1, 1, 0⟩

/-- The exchange of two sites with two states each, odd states. -/
def oddSwap : Generator := ⟨fun s => if s = 1 then 2 else if s = 2 then 1 else s, fun _ => 1, 2, 1⟩

example : ((given [("a", some trivialMap), ("b", none), ("c", some oddSwap)]).map (·.1)).Nodup ∧
    wanted [("a", some trivialMap), ("b", none), ("c", some oddSwap)] = [trivialMap, oddSwap] := by
  constructor
  · decide
  · rfl

example : Acts (· ∈ Finset.range 4) [trivialMap, oddSwap] where
  per_pos := by simp [trivialMap, oddSwap]
  closed y hy t ht := by
    simp only [List.mem_cons, List.not_mem_nil, or_false] at hy
    rw [Finset.mem_range] at ht ⊢
    rcases hy with rfl | rfl
    · exact ht
    · simp only [oddSwap]
      split <;> [omega; split <;> omega]
  sign y hy t _ := by
    simp only [List.mem_cons, List.not_mem_nil, or_false] at hy
    rcases hy with rfl | rfl <;> exact Or.inl rfl
  period y hy t ht := by
    simp only [List.mem_cons, List.not_mem_nil, or_false] at hy
    rw [Finset.mem_range] at ht
    rcases hy with rfl | rfl
    · rfl
    · interval_cases t <;> rfl
  commute y hy z hz t ht := by
    simp only [List.mem_cons, List.not_mem_nil, or_false] at hy hz
    rw [Finset.mem_range] at ht
    rcases hy with rfl | rfl <;> rcases hz with rfl | rfl <;> interval_cases t <;> rfl

/-- Defect: with two maps that act trivially (on a lattice with a single site in one direction the translation and the reflection in this direction do) and
the default order the first proper symmetry is dropped: the loop removes one after the other by their old places. -/
theorem C96_fails_identities (a b c : String) (i j g : Generator) (hi : i.per = 1) (hj : j.per = 1) (hg : 1 < g.per) :
    symmetries none [(a, some i), (b, some j), (c, some g)] = some [j] := by
  have e : sortedItems none (given [(a, some i), (b, some j), (c, some g)]) = some [(a, i), (b, j), (c, g)] := by
    unfold sortedItems given
    simp [List.insertionSort, hi, hj, hg.le]
  unfold symmetries
  rw [e]
  simp [given, removeIndex, List.range_succ, hi, hj, popLoop]

/-- Visible effect for two sites and the odd sector of their exchange: the state with both sites empty, which has no odd part, is a state of the basis. -/
theorem C96_fails_sector (used : List Generator) (h : symmetries none [("ky", some trivialMap), ("py", some trivialMap), ("p", some oddSwap)] = some used)
    (l l' : List (ℕ × ℤ)) (hl : ReducedBasis (· < 4) (wanted [("ky", some trivialMap), ("py", some trivialMap), ("p", some oddSwap)]) l)
    (hl' : ReducedBasis (· < 4) used l') : (0, 1) ∈ l' ∧ ∀ n, (0, n) ∉ l := by
  rw [C96_fails_identities "ky" "py" "p" trivialMap trivialMap oddSwap rfl rfl (by decide), Option.some.injEq] at h
  subst h
  constructor
  · rw [hl'.mem]
    have hp : ∀ t, projection [trivialMap] 0 t = if 0 = t then 1 else 0 := by
      intro t
      rw [projection_identity trivialMap [] rfl]
      simp [projection, exponents, word, character, angle]
    refine ⟨by omega, fun t ht => ?_, ⟨0, by rw [hp]; simp⟩, by rw [hp]; simp⟩
    have : t = 0 := by
      induction ht with
      | refl => rfl
      | tail _ hbc ih =>
        obtain ⟨y, hy, rfl⟩ := hbc
        rw [List.mem_singleton] at hy
        rw [hy, ih]
        rfl
    omega
  · intro n hn
    obtain ⟨_, _, ⟨t, ht⟩, _⟩ := (hl.mem 0 n).1 hn
    refine ht ?_
    show projection [trivialMap, trivialMap, oddSwap] 0 t = 0
    rw [projection_identity _ _ rfl, projection_identity _ _ rfl]
    have e1 : Complex.exp (Complex.I * ((2 * Real.pi * (oddSwap.q : ℝ) / (oddSwap.per : ℝ) * (1 : ℕ) + 0 : ℝ) : ℂ)) = -1 := by
      have : ((2 * Real.pi * (oddSwap.q : ℝ) / (oddSwap.per : ℝ) * (1 : ℕ) + 0 : ℝ) : ℂ) = Real.pi := by
        simp [oddSwap]
      rw [this, mul_comm, Complex.exp_pi_mul_I]
    have hx : exponents [oddSwap] = [[0], [1]] := rfl
    have w0 : word [oddSwap] [0] (0, 1) = (0, 1) := rfl
    have w1 : word [oddSwap] [1] (0, 1) = (0, 1) := rfl
    have c0 : character [oddSwap] [0] = 1 := by simp [character, angle]
    have c1 : character [oddSwap] [1] = -1 := by
      unfold character
      exact e1
    unfold projection
    rw [hx]
    simp only [List.map_cons, List.map_nil, w0, w1, c0, c1, List.sum_cons, List.sum_nil]
    split <;> simp

/-- Defect: with three maps that act trivially and one proper symmetry the constructor raises `IndexError`. -/
theorem C96_fails_raises (a b c d : String) (i j k g : Generator) (hi : i.per = 1) (hj : j.per = 1) (hk : k.per = 1) (hg : 1 < g.per) :
    symmetries none [(a, some i), (b, some j), (c, some k), (d, some g)] = none := by
  have e : sortedItems none (given [(a, some i), (b, some j), (c, some k), (d, some g)]) = some [(a, i), (b, j), (c, k), (d, g)] := by
    unfold sortedItems given
    simp [List.insertionSort, hi, hj, hk, hg.le]
  unfold symmetries
  rw [e]
  simp [given, removeIndex, List.range_succ, hi, hj, hk, popLoop]

end Props
