import Verif.Proof.OpFamilies

namespace Proof.OpStr
open Model.OpStr Spec Proof.Lattice

variable {A : Type} [Ring A] [Algebra ℂ A]

/-! ### Dynamic lists -/

/-- The bonds of a dynamic list. -/
def flattenD {F : Type} (l : List (List Char × List (ℂ × List Nat) × F)) : List (Op × F) :=
  l.flatMap fun e => e.2.1.map fun b => ((⟨e.1, b.2, b.1⟩ : Op), e.2.2)

theorem flattenD_total {F : Type} (w : Char → Nat → A) (x : F → ℂ) (l : List (List Char × List (ℂ × List Nat) × F)) :
    total w x (flattenD l) = drivenOp w x l := by
  induction l with
  | nil => rfl
  | cons e l ih =>
    simp only [total, flattenD, List.flatMap_cons, List.map_append, List.sum_append, drivenOp, List.map_cons, List.sum_cons] at ih ⊢
    rw [ih, List.map_map, List.smul_sum, List.map_map]
    rfl

theorem localDynamic_mem {F : Type} {B : Basis} {l : List (List Char × List (ℂ × List Nat) × F)} {d : List (Op × F)} (h : localDynamic B l = some d) :
    ∀ p ∈ d, ∃ q ∈ flattenD l, B.sort q.1 = some p.1 ∧ p.2 = q.2 := by
  intro p hp
  obtain ⟨q, hq, h⟩ := forall₂_mem (mapM_forall₂ h) hp
  obtain ⟨o, ho, rfl⟩ := Option.map_eq_some_iff.1 h
  exact ⟨q, hq, ho, rfl⟩

theorem localDynamic_sum {F M : Type} [AddCommMonoid M] [Module ℂ M] {v : Op → M} {B : Basis} (x : F → ℂ)
    {l : List (List Char × List (ℂ × List Nat) × F)} (hs : ∀ p ∈ flattenD l, ∀ r, B.sort p.1 = some r → v r = v p.1)
    {d : List (Op × F)} (h : localDynamic B l = some d) : (d.map fun p => x p.2 • v p.1).sum = ((flattenD l).map fun p => x p.2 • v p.1).sum := by
  have hf := mapM_forall₂ h
  have : List.Forall₂ (fun (a b : Op × F) => a ∈ flattenD l ∧ (B.sort a.1).map (fun o => (o, a.2)) = some b) (flattenD l) d := by
    rw [List.forall₂_and_left]
    exact ⟨fun a ha => ha, hf⟩
  refine forall₂_sum (fun a b hab => ?_) this
  obtain ⟨o, ho, rfl⟩ := Option.map_eq_some_iff.1 hab.2
  simp only [hs a hab.1 o ho]

/-! ### Hermiticity -/

theorem herm_static {M : Type} [AddCommMonoid M] [StarAddMonoid M] {v : Op → M} {B : Basis} {P : Op → Prop} {l : OpList}
    (hP : ∀ op ∈ flatten l, P op) (hs : ∀ op, P op → ∀ r, B.sort op = some r → v r = v op ∧ P r)
    (hh : ∀ op, P op → ∀ r, B.hc op = some r → v r = star (v op)) {s sh : List Op} (h1 : localList B l = some s) (hn : s.Nodup)
    (h2 : s.mapM B.hc = some sh) (h3 : ∀ x ∈ s, x ∈ sh) : star (((flatten l).map v).sum) = ((flatten l).map v).sum := by
  have hf := mapM_forall₂ h1
  have hf' : List.Forall₂ (fun a b => a ∈ flatten l ∧ B.sort a = some b) (flatten l) s := by
    rw [List.forall₂_and_left]
    exact ⟨fun a ha => ha, hf⟩
  have e := forall₂_sum (f := v) (g := v) (fun a b hab => (hs a (hP a hab.1) b hab.2).1) hf'
  rw [← e]
  refine accepts_star (fun op hop r hr => hh op ?_ r hr) hn h2 h3
  obtain ⟨a, ha, hab⟩ := forall₂_mem hf' hop
  exact (hs a (hP a ha) op hab.2).2

theorem herm_dynamic {F M : Type} [AddCommMonoid M] [StarAddMonoid M] [Module ℂ M] {v : Op → M} {B : Basis} {P : Op → Prop}
    {l : List (List Char × List (ℂ × List Nat) × F)} (x : F → ℂ) (hv : ∀ op y, v (timesDrive op y) = y • v op)
    (hP : ∀ p ∈ flattenD l, P p.1) (hPt : ∀ op y, P op → P (timesDrive op y))
    (hs : ∀ op, P op → ∀ r, B.sort op = some r → v r = v op ∧ P r)
    (hh : ∀ op, P op → ∀ r, B.hc op = some r → v r = star (v op)) {d : List (Op × F)} {de dh : List Op} (h1 : localDynamic B l = some d)
    (h2 : (d.map fun p => timesDrive p.1 (x p.2)).mapM B.sort = some de) (hn : de.Nodup)
    (h3 : (d.map fun p => timesDrive p.1 (x p.2)).mapM B.hc = some dh) (h4 : ∀ y ∈ de, y ∈ dh) :
    star (((flattenD l).map fun p => x p.2 • v p.1).sum) = ((flattenD l).map fun p => x p.2 • v p.1).sum := by
  rw [← localDynamic_sum x (fun p hp r hr => (hs p.1 (hP p hp) r hr).1) h1]
  have hPd : ∀ o ∈ d.map fun p => timesDrive p.1 (x p.2), P o := by
    intro o ho
    obtain ⟨p, hp, rfl⟩ := List.mem_map.1 ho
    obtain ⟨q, hq, hs', -⟩ := localDynamic_mem h1 p hp
    exact hPt _ _ (hs q.1 (hP q hq) p.1 hs').2
  have e0 : (d.map fun p => x p.2 • v p.1).sum = ((d.map fun p => timesDrive p.1 (x p.2)).map v).sum := by
    rw [List.map_map]
    congr 1
    exact List.map_congr_left fun p _ => (hv _ _).symm
  rw [e0]
  generalize hD : (d.map fun p => timesDrive p.1 (x p.2)) = D at h2 h3 hPd
  have f2 : List.Forall₂ (fun a b => a ∈ D ∧ B.sort a = some b) D de := by
    rw [List.forall₂_and_left]
    exact ⟨fun a ha => ha, mapM_forall₂ h2⟩
  have f3 : List.Forall₂ (fun a b => a ∈ D ∧ B.hc a = some b) D dh := by
    rw [List.forall₂_and_left]
    exact ⟨fun a ha => ha, mapM_forall₂ h3⟩
  have e2 := forall₂_sum (f := v) (g := v) (fun a b hab => (hs a (hPd a hab.1) b hab.2).1) f2
  have e3 := forall₂_sum (f := fun o => star (v o)) (g := v) (fun a b hab => hh a (hPd a hab.1) b hab.2) f3
  have e4 := subset_sum hn (by rw [← f2.length_eq, ← f3.length_eq]) h4 v
  have e5 : ∀ s : List Op, star ((s.map v).sum) = (s.map fun o => star (v o)).sum := by
    intro s
    induction s with
    | nil => simp
    | cons a s ih => simp [star_add, ih]
  rw [e5, ← e3, ← e4, e2]

theorem val_timesDrive (w : Char → Nat → A) (op : Op) (y : ℂ) : val w (timesDrive op y) = y • val w op := by
  simp only [val, term, timesDrive, mul_comm op.J, mul_smul]

theorem valSpinful_timesDrive (w : Char → Nat → A) (L : Nat) (op : Op) (y : ℂ) : valSpinful w L (timesDrive op y) = y • valSpinful w L op := by
  simp only [valSpinful, spinfulTerm, timesDrive, mul_comm op.J, mul_smul]

/-- Sorting permutes the characters together with their sites. -/
def SortPerm (B : Basis) : Prop :=
  ∀ op r, B.sort op = some r → op.str.length = op.indx.length ∧ r.str.length = r.indx.length ∧ (r.str.zip r.indx).Perm (op.str.zip op.indx)

theorem sortSite_perm {op r : Op} (h : sortSite op = some r) : op.str.length = op.indx.length ∧ r.str.length = r.indx.length ∧
    (r.str.zip r.indx).Perm (op.str.zip op.indx) := by
  obtain ⟨-, h2, rfl⟩ := sortSite_some h
  refine ⟨h2, by simp, ?_⟩
  simp only [zip_fst_snd]
  exact List.perm_insertionSort _ _

theorem sortFermion_perm' {op r : Op} (h : sortFermion op = some r) : op.str.length = op.indx.length ∧ r.str.length = r.indx.length ∧
    (r.str.zip r.indx).Perm (op.str.zip op.indx) := ⟨(sortFermion_some h).2.1, sortFermion_lengths h, sortFermion_perm h⟩

theorem perm_parts {s t : List Char} {i j : List Nat} (h1 : s.length = i.length) (h2 : t.length = j.length) (h : (t.zip j).Perm (s.zip i)) :
    t.Perm s ∧ j.Perm i := by
  have a := h.map Prod.fst
  have b := h.map Prod.snd
  rw [List.map_fst_zip (by omega), List.map_fst_zip (by omega)] at a
  rw [List.map_snd_zip (by omega), List.map_snd_zip (by omega)] at b
  exact ⟨a, b⟩

/-! ### Expansion -/

/-- Strings that `_non_zero` judges rightly: one site per character, no site more than `b` times. -/
def Bond (b : Nat) (op : Op) : Prop := op.str.length = op.indx.length ∧ ∀ i, op.indx.count i ≤ b

theorem count_two (l : List (Char × Nat)) (i : Nat) :
    ((l.filter fun p => p.1 = '+').map Prod.snd).count i + ((l.filter fun p => p.1 = '-').map Prod.snd).count i ≤ (l.map Prod.snd).count i := by
  induction l with
  | nil => simp
  | cons p l ih =>
    by_cases h1 : p.1 = '+'
    · simp [h1, List.count_cons]; omega
    · by_cases h2 : p.1 = '-'
      · simp [h2, List.count_cons]; omega
      · simp [h1, h2, List.count_cons]; omega

theorem bond_zero {b N : Nat} {w : Char → Nat → Matrix (Conf b N) (Conf b N) ℂ} (hw : Graded w) (hb : 0 < b) (hN : ∀ c i, N ≤ i → w c i = 0) {op : Op}
    (hB : Bond b op) (hx : ∀ c ∈ op.str, c ≠ 'x' ∧ c ≠ 'y') (h : nonZero (b - 1) op = false) : val w op = 0 := by
  have hsum : ∀ i, (sitesOf '+' op).count i + (sitesOf '-' op).count i ≤ b := by
    intro i
    have := count_two (op.str.zip op.indx) i
    rw [List.map_snd_zip (by rw [hB.1])] at this
    exact this.trans (hB.2 i)
  have hz := nonZero_word hw hb hN op hx ?_ ?_ h
  · simp only [val, term, hz, smul_zero]
  · intro i hi hc hm
    have := hsum i
    have := List.count_pos_iff.2 hm
    omega
  · intro i hi hc hm
    have := hsum i
    have := List.count_pos_iff.2 hm
    omega

theorem count_le_of_all {l : List (Char × Nat)} (t : List Char) (j : List Nat) (i : Nat) (h : j.Perm (l.map Prod.snd)) :
    j.count i = (l.map Prod.snd).count i := h.count_eq i

/-- What the proofs about `expanded_form` need from a basis. -/
structure Expands (b N : Nat) (w : Char → Nat → Matrix (Conf b N) (Conf b N) ℂ) (B : Basis) (ex : Op → List Op) (G : Op → Prop) : Prop where
  pos : 0 < b
  graded : Graded w
  out : ∀ c i, N ≤ i → w c i = 0
  expand : B.expand = fun o => some (ex o)
  nonZero : B.nonZero = fun o => some (nonZero (b - 1) o)
  perm : SortPerm B
  good : ∀ op r, G op → B.sort op = some r → G r
  value : ∀ op, G op → op.str.length = op.indx.length → ((ex op).map (val w)).sum = val w op
  parts : ∀ op, G op → op.str.length = op.indx.length → ∀ r ∈ ex op, r.str.length = r.indx.length ∧ r.indx = op.indx ∧ G r ∧ ∀ c ∈ r.str, c ≠ 'x' ∧ c ≠ 'y'
  sort : ∀ op r, G op → B.sort op = some r → val w r = val w op

theorem Expands.total {b N : Nat} {w : Char → Nat → Matrix (Conf b N) (Conf b N) ℂ} {B : Basis} {ex : Op → List Op} {G : Op → Prop}
    (H : Expands b N w B ex G) {F : Type} {x : F → ℂ} {d e : List (Op × F)} (hd : ∀ p ∈ d, G p.1 ∧ Bond b p.1) (h : expandList B d = some e) :
    total w x e = Proof.OpStr.total w x d := by
  refine expandList_sum H.expand H.nonZero h (fun p hp => H.value _ (hd p hp).1 (hd p hp).2.1) ?_ ?_
  · intro p hp o ho hz
    obtain ⟨h1, h2, -, h3⟩ := H.parts p.1 (hd p hp).1 (hd p hp).2.1 o ho
    exact bond_zero H.graded H.pos H.out ⟨h1, fun i => by rw [h2]; exact (hd p hp).2.2 i⟩ h3 hz
  · rintro op r hr ⟨p, hp, hop⟩
    exact H.sort _ _ (H.parts p.1 (hd p hp).1 (hd p hp).2.1 op hop).2.2.1 hr

theorem Expands.bond {b N : Nat} {w : Char → Nat → Matrix (Conf b N) (Conf b N) ℂ} {B : Basis} {ex : Op → List Op} {G : Op → Prop}
    (H : Expands b N w B ex G) {op r : Op} (hG : G op) (hb : ∀ i, op.indx.count i ≤ b) (h : B.sort op = some r) : G r ∧ Bond b r := by
  obtain ⟨h1, h2, h3⟩ := H.perm op r h
  refine ⟨H.good op r hG h, h2, fun i => ?_⟩
  rw [(perm_parts h1 h2 h3).2.count_eq]
  exact hb i

theorem Expands.letters {b N : Nat} {w : Char → Nat → Matrix (Conf b N) (Conf b N) ℂ} {B : Basis} {ex : Op → List Op} {G : Op → Prop}
    (H : Expands b N w B ex G) {F : Type} {d e : List (Op × F)} (hd : ∀ p ∈ d, G p.1 ∧ Bond b p.1) (h : expandList B d = some e) :
    ∀ p ∈ e, p.1.str.length = p.1.indx.length ∧ ∀ c ∈ p.1.str, c ≠ 'x' ∧ c ≠ 'y' := by
  intro p hp
  rw [expandList_total H.expand H.nonZero] at h
  obtain ⟨q, hq, h⟩ := forall₂_mem (mapM_forall₂ h) hp
  obtain ⟨o, ho, rfl⟩ := Option.map_eq_some_iff.1 h
  obtain ⟨a, ha, hq⟩ := List.mem_flatMap.1 hq
  obtain ⟨c, hc, rfl⟩ := List.mem_map.1 hq
  obtain ⟨h1, h2, h3, h4⟩ := H.parts a.1 (hd a ha).1 (hd a ha).2.1 c (List.mem_filter.1 hc).1
  obtain ⟨-, p2, p3⟩ := H.perm _ _ ho
  refine ⟨p2, fun x hx => h4 x ?_⟩
  exact ((perm_parts h1 p2 p3).1.mem_iff).1 hx

theorem Expands.static {b N : Nat} {w : Char → Nat → Matrix (Conf b N) (Conf b N) ℂ} {B : Basis} {ex : Op → List Op} {G : Op → Prop}
    (H : Expands b N w B ex G) {tiny : ℂ → Prop} (ht : ∀ J, tiny J → J = 0) {l : OpList} (hG : ∀ op ∈ flatten l, G op ∧ ∀ i, op.indx.count i ≤ b)
    {s : List Op} {e : List (Op × Unit)} (h1 : localList B l = some s) (h2 : expandList B (s.map fun o => (o, ())) = some e) :
    ((consolidate tiny e).map fun p => val w p.1).sum = listOp w l ∧
      ∀ p ∈ consolidate tiny e, p.1.str.length = p.1.indx.length ∧ ∀ c ∈ p.1.str, c ≠ 'x' ∧ c ≠ 'y' := by
  have hd : ∀ p ∈ s.map fun o => (o, ()), G p.1 ∧ Bond b p.1 := by
    intro p hp
    obtain ⟨o, ho, rfl⟩ := List.mem_map.1 hp
    obtain ⟨a, ha, hab⟩ := forall₂_mem (mapM_forall₂ h1) ho
    exact H.bond (hG a ha).1 (hG a ha).2 hab
  have e1 := H.total (x := fun _ => 1) hd h2
  have e2 := consolidate_total w (fun _ : Unit => 1) tiny ht e (fun _ _ _ _ _ _ => rfl)
  have e3 := localList_sum (w := w) (fun op hop r hr => H.sort op r (hG op hop).1 hr) h1
  refine ⟨?_, ?_⟩
  · rw [← e3]
    have : (Proof.OpStr.total w (fun _ : Unit => 1) (s.map fun o => (o, ()))) = (s.map (val w)).sum := by
      simp [Proof.OpStr.total, List.map_map, Function.comp_def]
    rw [← this, ← e1, ← e2]
    simp [Proof.OpStr.total]
  · intro p hp
    obtain ⟨q, hq, k1, k2, -⟩ := consolidate_keys tiny e p hp
    rw [k1, k2]
    exact H.letters hd h2 q hq

theorem Expands.dynamic {b N : Nat} {w : Char → Nat → Matrix (Conf b N) (Conf b N) ℂ} {B : Basis} {ex : Op → List Op} {G : Op → Prop}
    (H : Expands b N w B ex G) {F : Type} {x : F → ℂ} {tiny : ℂ → Prop} (ht : ∀ J, tiny J → J = 0) {l : List (List Char × List (ℂ × List Nat) × F)}
    (hG : ∀ p ∈ flattenD l, G p.1 ∧ ∀ i, p.1.indx.count i ≤ b) (hF : ∀ e ∈ l, ∀ e' ∈ l, x e.2.2 = x e'.2.2)
    {d e : List (Op × F)} (h1 : localDynamic B l = some d) (h2 : expandList B d = some e) :
    ((consolidate tiny e).map fun p => x p.2 • val w p.1).sum = drivenOp w x l ∧
      ∀ p ∈ consolidate tiny e, p.1.str.length = p.1.indx.length ∧ ∀ c ∈ p.1.str, c ≠ 'x' ∧ c ≠ 'y' := by
  have hd : ∀ p ∈ d, G p.1 ∧ Bond b p.1 := by
    intro p hp
    obtain ⟨q, hq, hs, -⟩ := localDynamic_mem h1 p hp
    exact H.bond (hG q hq).1 (hG q hq).2 hs
  have hx : ∀ p ∈ e, ∃ f ∈ l, p.2 = f.2.2 := by
    intro p hp
    have h2' := h2
    rw [expandList_total H.expand H.nonZero] at h2'
    obtain ⟨q, hq, h⟩ := forall₂_mem (mapM_forall₂ h2') hp
    obtain ⟨o, ho, rfl⟩ := Option.map_eq_some_iff.1 h
    obtain ⟨a, ha, hq⟩ := List.mem_flatMap.1 hq
    obtain ⟨c, hc, rfl⟩ := List.mem_map.1 hq
    obtain ⟨q', hq', -, h3⟩ := localDynamic_mem h1 a ha
    obtain ⟨f, hf, h4⟩ := List.mem_flatMap.1 hq'
    obtain ⟨b', hb', rfl⟩ := List.mem_map.1 h4
    exact ⟨f, hf, h3⟩
  have e1 := H.total (x := x) hd h2
  have e2 := consolidate_total w x tiny ht e (fun p hp q hq _ _ => by
    obtain ⟨f, hf, h3⟩ := hx p hp
    obtain ⟨g, hg, h4⟩ := hx q hq
    rw [h3, h4]
    exact hF f hf g hg)
  have e3 := localDynamic_sum (v := val w) x (fun p hp r hr => H.sort p.1 r (hG p hp).1 hr) h1
  refine ⟨?_, ?_⟩
  · rw [← flattenD_total]
    exact e2.trans (e1.trans e3)
  · intro p hp
    obtain ⟨q, hq, k1, k2, -⟩ := consolidate_keys tiny e p hp
    rw [k1, k2]
    exact H.letters hd h2 q hq

theorem expands_spinHalf {p : Int} (hp : p = 0 ∨ p = 1 ∨ p = -1) (N : Nat) :
    Expands 2 N (siteOp 2 N (pauliMatrix p)) (spinBasis 2 p) (expandSpin p) (fun _ => True) where
  pos := by omega
  graded := siteOp_graded (pauli_ladder p)
  out := siteOp_out
  expand := rfl
  nonZero := rfl
  perm := fun _ _ h => sortSite_perm h
  good := fun _ _ _ _ => trivial
  value := fun op _ hl => expandSpin_val op (fun c _ i => expandChar_pauli hp N c i) hl
  parts := fun op _ hl r hr => by
    obtain ⟨h1, h2⟩ := expandSpin_lengths p op hl r hr
    exact ⟨by rw [h1, h2, hl], h2, trivial, expandSpin_letters p op r hr⟩
  sort := fun _ _ _ h => sortSite_val (fun o q _ _ hij => siteOp_commute _ o q hij) h

/-- No `x`, no `y`. -/
def Plain (op : Op) : Prop := ∀ c ∈ op.str, c ≠ 'x' ∧ c ≠ 'y'

theorem plain_sort {op r : Op} (hG : Plain op) (h : op.str.length = op.indx.length ∧ r.str.length = r.indx.length ∧ (r.str.zip r.indx).Perm (op.str.zip op.indx)) :
    Plain r := fun c hc => hG c (((perm_parts h.1 h.2.1 h.2.2).1.mem_iff).1 hc)

theorem expandChar_plain {p : Int} {c : Char} (h : c ≠ 'x' ∧ c ≠ 'y') : expandChar p c = [(1, c)] := by
  rw [expandChar, if_neg h.1, if_neg h.2]

theorem expands_spin {b : Nat} (hb : 0 < b) {u : Char → Nat → Nat → ℂ} (hu : Ladder u) (p : Int) (N : Nat) :
    Expands b N (siteOp b N u) (spinBasis b p) (expandSpin p) Plain where
  pos := hb
  graded := siteOp_graded hu
  out := siteOp_out
  expand := rfl
  nonZero := rfl
  perm := fun _ _ h => sortSite_perm h
  good := fun _ _ hG h => plain_sort hG (sortSite_perm h)
  value := fun op hG hl => expandSpin_val op (fun c hc i => by rw [expandChar_plain (hG c hc)]; simp) hl
  parts := fun op _ hl r hr => by
    obtain ⟨h1, h2⟩ := expandSpin_lengths p op hl r hr
    exact ⟨by rw [h1, h2, hl], h2, expandSpin_letters p op r hr, expandSpin_letters p op r hr⟩
  sort := fun _ _ _ h => sortSite_val (fun o q _ _ hij => siteOp_commute _ o q hij) h

theorem expands_boson {b : Nat} (hb : 0 < b) {u : Char → Nat → Nat → ℂ} (hu : Ladder u) (N : Nat) :
    Expands b N (siteOp b N u) (bosonBasis b) expandNone Plain where
  pos := hb
  graded := siteOp_graded hu
  out := siteOp_out
  expand := rfl
  nonZero := rfl
  perm := fun _ _ h => sortSite_perm h
  good := fun _ _ hG h => plain_sort hG (sortSite_perm h)
  value := fun op _ _ => by simp [expandNone]
  parts := fun op hG hl r hr => by rw [List.mem_singleton.1 hr]; exact ⟨hl, rfl, hG, hG⟩
  sort := fun _ _ _ h => sortSite_val (fun o q _ _ hij => siteOp_commute _ o q hij) h

theorem expands_fermion (N : Nat) : Expands 2 N (fermionOp N) fermionBasis expandNone Plain where
  pos := by omega
  graded := fermionOp_graded
  out := fermionOp_out
  expand := rfl
  nonZero := rfl
  perm := fun _ _ h => sortFermion_perm' h
  good := fun _ _ hG h => plain_sort hG (sortFermion_perm' h)
  value := fun op _ _ => by simp [expandNone]
  parts := fun op hG hl r hr => by rw [List.mem_singleton.1 hr]; exact ⟨hl, rfl, hG, hG⟩
  sort := fun _ _ hG h => sortFermion_val fermionOp_exch hG h

/-! ### Particle conservation -/

theorem keepsSum_sum {b N : Nat} {α : Type} (L : List α) (M : α → Matrix (Conf b N) (Conf b N) ℂ) (h : ∀ a ∈ L, KeepsSum (M a)) : KeepsSum ((L.map M).sum) := by
  induction L with
  | nil => intro t s h; simp at h
  | cons a L ih =>
    intro t s hts
    rw [List.map_cons, List.sum_cons, Matrix.add_apply] at hts
    by_cases h1 : M a t s = 0
    · rw [h1, zero_add] at hts
      exact ih (fun a ha => h a (by simp [ha])) t s hts
    · exact h a (by simp) t s h1

theorem keepsSum_smul {b N : Nat} (x : ℂ) {M : Matrix (Conf b N) (Conf b N) ℂ} (h : KeepsSum M) : KeepsSum (x • M) := by
  intro t s hts
  rw [Matrix.smul_apply, smul_eq_mul] at hts
  exact h t s (right_ne_zero_of_mul hts)

theorem keepsSum_val {b N : Nat} {w : Char → Nat → Matrix (Conf b N) (Conf b N) ℂ} (hw : Graded w) (hN : ∀ c i, N ≤ i → w c i = 0) {op : Op}
    (hl : op.str.length = op.indx.length) (hx : ∀ c ∈ op.str, c ≠ 'x' ∧ c ≠ 'y') (hc : op.str.count '+' = op.str.count '-') : KeepsSum (val w op) := by
  refine keepsSum_smul _ fun t s hts => ?_
  have := conserve_word hw hN (op.str.zip op.indx) (fun p hp => hx _ (List.of_mem_zip hp).1) t s hts
  rw [List.map_fst_zip (by omega), hc, sub_self, add_zero] at this
  exact_mod_cast this

theorem Expands.pcon {b N : Nat} {w : Char → Nat → Matrix (Conf b N) (Conf b N) ℂ} {B : Basis} {ex : Op → List Op} {G : Op → Prop}
    (H : Expands b N w B ex G) {F : Type} {tiny : ℂ → Prop} (ht : ∀ J, tiny J → J = 0) {l : OpList}
    {l' : List (List Char × List (ℂ × List Nat) × F)} (hG : ∀ op ∈ flatten l, G op ∧ ∀ i, op.indx.count i ≤ b)
    (hG' : ∀ p ∈ flattenD l', G p.1 ∧ ∀ i, p.1.indx.count i ≤ b) (h : acceptsPcon B tiny l l') :
    KeepsSum (listOp w l) ∧ ∀ x : F → ℂ, (∀ e ∈ l', ∀ e' ∈ l', x e.2.2 = x e'.2.2) → KeepsSum (drivenOp w x l') := by
  obtain ⟨s, se, d, de, h1, h2, h3, h4, h5, h6⟩ := h
  refine ⟨?_, fun x hx => ?_⟩
  · obtain ⟨e1, e2⟩ := H.static ht hG h1 h2
    rw [← e1]
    exact keepsSum_sum _ _ fun p hp => keepsSum_val H.graded H.out (e2 p hp).1 (e2 p hp).2 (h5 p hp)
  · obtain ⟨e1, e2⟩ := H.dynamic ht hG' hx h3 h4
    rw [← e1]
    exact keepsSum_sum _ _ fun p hp => keepsSum_smul _ (keepsSum_val H.graded H.out (e2 p hp).1 (e2 p hp).2 (h6 p hp))

end Proof.OpStr
