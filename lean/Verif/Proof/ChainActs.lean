import Verif.Proof.ChainBits
import Verif.Proof.ChainCheck
/-! Site maps act on configurations, with or without fermionic signs. -/
namespace Proof.Chain
open Spec Model.Chain Proof.Symmetry Proof.Maps

/-- signed image under a function of the sites with inversions -/
structure Sends (b L : Nat) (F : Bool) (σ : Nat → Nat) (ι : Nat → Bool) (s : Nat) (x : Nat × Int) : Prop where
  lt : x.1 < b ^ L
  occ : ∀ i < L, occ b L x.1 (σ i) = flipIf b (ι i) (occ b L s i)
  sgn : x.2 = if F then reorderSign σ (occupied L s) else 1

/-- conditions on a function of the sites -/
structure SiteFun (L : Nat) (F : Bool) (σ : Nat → Nat) (ι : Nat → Bool) : Prop where
  range : ∀ i < L, σ i < L
  inj : ∀ i < L, ∀ j < L, σ i = σ j → i = j
  pure : F = true → ∀ i < L, ι i = false

theorem flipIf_flipIf (b : Nat) (c d : Bool) (n : Nat) (h : n < b) : flipIf b c (flipIf b d n) = flipIf b (xor d c) n := by
  unfold flipIf
  cases c <;> cases d <;> simp
  omega

theorem SiteFun.surj {L : Nat} {F : Bool} {σ : Nat → Nat} {ι : Nat → Bool} (h : SiteFun L F σ ι) (j : Nat) (hj : j < L) :
    ∃ i < L, σ i = j := by
  have hinj : Function.Injective fun i : Fin L => (⟨σ i, h.range i i.2⟩ : Fin L) := by
    intro a b e
    simp only [Fin.mk.injEq] at e
    exact Fin.ext (h.inj a a.2 b b.2 e)
  obtain ⟨i, hi⟩ := (Finite.injective_iff_surjective.1 hinj) ⟨j, hj⟩
  exact ⟨i, i.2, by simpa using congrArg Fin.val hi⟩

theorem SiteFun.comp {L : Nat} {F : Bool} {σ τ : Nat → Nat} {ι κ : Nat → Bool} (h : SiteFun L F σ ι) (h' : SiteFun L F τ κ) :
    SiteFun L F (fun i => τ (σ i)) (fun i => xor (ι i) (κ (σ i))) where
  range := fun i hi => h'.range _ (h.range i hi)
  inj := fun i hi j hj e => h.inj i hi j hj (h'.inj _ (h.range i hi) _ (h.range j hj) e)
  pure := fun hF i hi => by rw [h.pure hF i hi, h'.pure hF _ (h.range i hi)]; rfl

theorem occupied_sends {L : Nat} {σ : Nat → Nat} {ι : Nat → Bool} (h : SiteFun L true σ ι) {s : Nat} {x : Nat × Int}
    (hx : Sends 2 L true σ ι s x) : occupied L x.1 = (occupied L s).image σ := by
  ext j
  unfold occupied
  simp only [Finset.mem_filter, Finset.mem_range, Finset.mem_image]
  constructor
  · rintro ⟨h1, h2⟩
    obtain ⟨i, hi, rfl⟩ := h.surj j h1
    refine ⟨i, ⟨hi, ?_⟩, rfl⟩
    rw [hx.occ i hi, h.pure rfl i hi] at h2
    simpa [flipIf] using h2
  · rintro ⟨i, ⟨hi, h2⟩, rfl⟩
    refine ⟨h.range i hi, ?_⟩
    rw [hx.occ i hi, h.pure rfl i hi]
    simpa [flipIf] using h2

theorem Sends.comp {b L : Nat} {F : Bool} (hb : 0 < b) (hF : F = true → b = 2) {σ τ : Nat → Nat} {ι κ : Nat → Bool}
    (h : SiteFun L F σ ι) (h' : SiteFun L F τ κ) {s : Nat} {x y : Nat × Int} (hx : Sends b L F σ ι s x)
    (hy : Sends b L F τ κ x.1 y) :
    Sends b L F (fun i => τ (σ i)) (fun i => xor (ι i) (κ (σ i))) s (y.1, x.2 * y.2) where
  lt := hy.lt
  occ := fun i hi => by
    rw [hy.occ _ (h.range i hi), hx.occ i hi, flipIf_flipIf _ _ _ _ (occ_lt b L s i hb)]
  sgn := by
    cases F with
    | false => simp only; rw [hx.sgn, hy.sgn]; rfl
    | true =>
      obtain rfl := hF rfl
      simp only [if_true]
      have e := hx.sgn
      have e' := hy.sgn
      simp only [if_true] at e e'
      rw [e, e', occupied_sends h hx, mul_comm]
      have hO : ∀ i ∈ occupied L s, i < L := fun i hi => by simp [occupied] at hi; exact hi.1
      refine Proof.FermionMaps.reorder_comp σ τ _ ?_ ?_
      · intro a ha c hc e
        exact h.inj a (hO a ha) c (hO c hc) e
      · intro a ha c hc e
        rw [Finset.mem_coe, Finset.mem_image] at ha hc
        obtain ⟨a', h1, rfl⟩ := ha
        obtain ⟨c', h2, rfl⟩ := hc
        exact h'.inj _ (h.range _ (hO _ h1)) _ (h.range _ (hO _ h2)) e

theorem Sends.unique {b L : Nat} {F : Bool} {σ τ : Nat → Nat} {ι κ : Nat → Bool} (h : SiteFun L F σ ι)
    (hσ : ∀ i < L, σ i = τ i) (hι : ∀ i < L, ι i = κ i) {s : Nat} {x y : Nat × Int} (hx : Sends b L F σ ι s x)
    (hy : Sends b L F τ κ s y) : x = y := by
  refine Prod.ext ?_ ?_
  · refine occ_ext b L _ _ hx.lt hy.lt fun j hj => ?_
    obtain ⟨i, hi, rfl⟩ := h.surj j hj
    rw [hx.occ i hi, hσ i hi, hy.occ i hi, hι i hi]
  · rw [hx.sgn, hy.sgn]
    cases F with
    | false => rfl
    | true =>
      simp only [if_true]
      apply Proof.FermionMaps.reorder_congr
      intro i hi
      simp [occupied] at hi
      exact hσ i hi.1

theorem Sends.id (b L : Nat) (F : Bool) (s : Nat) (hs : s < b ^ L) : Sends b L F (fun i => i) (fun _ => false) s (s, 1) where
  lt := hs
  occ := fun i _ => by simp [flipIf]
  sgn := by cases F <;> simp [Proof.FermionMaps.reorder_id]

theorem SiteFun.id (L : Nat) (F : Bool) : SiteFun L F (fun i => i) (fun _ => false) :=
  ⟨fun i hi => hi, fun i _ j _ h => h, fun _ _ _ => rfl⟩

/-- functions of the sites for the iterates -/
def iterFun (σ : Nat → Nat) (ι : Nat → Bool) : Nat → (Nat → Nat) × (Nat → Bool)
  | 0 => (fun i => i, fun _ => false)
  | n + 1 => (fun i => σ ((iterFun σ ι n).1 i), fun i => xor ((iterFun σ ι n).2 i) (ι ((iterFun σ ι n).1 i)))

/-- one symmetry given by a function of the sites -/
structure Symm (b L : Nat) (F : Bool) (σ : Nat → Nat) (ι : Nat → Bool) (y : Generator) : Prop where
  site : SiteFun L F σ ι
  pos : 0 < y.per
  period : ∀ i < L, (iterFun σ ι y.per).1 i = i ∧ (iterFun σ ι y.per).2 i = false
  sends : ∀ s < b ^ L, Sends b L F σ ι s (y.img s, y.sgn s)

theorem Symm.iter {b L : Nat} {F : Bool} (hb : 0 < b) (hF : F = true → b = 2) {σ : Nat → Nat} {ι : Nat → Bool} {y : Generator}
    (h : Symm b L F σ ι y) (s : Nat) (hs : s < b ^ L) (n : Nat) :
    SiteFun L F (iterFun σ ι n).1 (iterFun σ ι n).2 ∧ Sends b L F (iterFun σ ι n).1 (iterFun σ ι n).2 s (y.U^[n] (s, 1)) := by
  induction n with
  | zero => exact ⟨SiteFun.id L F, Sends.id b L F s hs⟩
  | succ n ih =>
    refine ⟨ih.1.comp h.site, ?_⟩
    rw [Function.iterate_succ_apply']
    exact Sends.comp hb hF ih.1 h.site ih.2 (h.sends _ ih.2.lt)

theorem acts_of_symm {b L : Nat} {F : Bool} (hb : 0 < b) (hF : F = true → b = 2)
    (items : List ((Nat → Nat) × (Nat → Bool) × Generator))
    (h : ∀ x ∈ items, Symm b L F x.1 x.2.1 x.2.2)
    (hc : ∀ x ∈ items, ∀ x' ∈ items, ∀ i < L, x.1 (x'.1 i) = x'.1 (x.1 i) ∧
      xor (x'.2.1 i) (x.2.1 (x'.1 i)) = xor (x.2.1 i) (x'.2.1 (x.1 i))) :
    Acts (· < b ^ L) (items.map fun x => x.2.2) where
  per_pos := by
    intro y hy
    rw [List.mem_map] at hy
    obtain ⟨x, hx, rfl⟩ := hy
    exact (h x hx).pos
  closed := by
    intro y hy t ht
    rw [List.mem_map] at hy
    obtain ⟨x, hx, rfl⟩ := hy
    exact ((h x hx).sends t ht).lt
  sign := by
    intro y hy t ht
    rw [List.mem_map] at hy
    obtain ⟨x, hx, rfl⟩ := hy
    have := ((h x hx).sends t ht).sgn
    simp only at this
    rw [this]
    cases F with
    | false => left; rfl
    | true => exact Proof.FermionMaps.reorder_sq _ _
  period := by
    intro y hy t ht
    rw [List.mem_map] at hy
    obtain ⟨x, hx, rfl⟩ := hy
    obtain ⟨h1, h2⟩ := (h x hx).iter hb hF t ht x.2.2.per
    exact Sends.unique h1 (fun i hi => ((h x hx).period i hi).1) (fun i hi => ((h x hx).period i hi).2) h2 (Sends.id b L F t ht)
  commute := by
    intro y hy z hz t ht
    rw [List.mem_map] at hy hz
    obtain ⟨x, hx, rfl⟩ := hy
    obtain ⟨x', hx', rfl⟩ := hz
    have a := (h x hx).sends t ht
    have a' := (h x' hx').sends t ht
    have c := Sends.comp hb hF (h x hx).site (h x' hx').site a ((h x' hx').sends _ a.lt)
    have c' := Sends.comp hb hF (h x' hx').site (h x hx).site a' ((h x hx).sends _ a'.lt)
    have := Sends.unique ((h x' hx').site.comp (h x hx).site) (fun i hi => (hc x hx x' hx' i hi).1)
      (fun i hi => (hc x hx x' hx' i hi).2) c' c
    simp only [Generator.U, one_mul]
    exact this

/-- a user-style map as functions of the sites -/
theorem sends_of_image {b L : Nat} {map : List Int} {s t : Nat} (h : IsImage b L map s t) :
    Sends b L false (dest map) (inverts map) s (t, 1) := ⟨h.lt, h.occ, rfl⟩

theorem sends_of_fermion {L : Nat} {map : List Int} {s t : Nat} (h : IsImage 2 L map s t)
    (hpos : ∀ i < L, inverts map i = false) : Sends 2 L true (dest map) (inverts map) s (t, fermionMapSign L map s) :=
  ⟨h.lt, h.occ, by rw [if_pos rfl]; exact sign_move L map s hpos⟩

/-! ### the generators of a block are determined by what they do -/

/-- agreement on a set of configurations -/
structure Agree (S : Nat → Prop) (y y' : Generator) : Prop where
  per : y.per = y'.per
  q : y.q = y'.q
  img : ∀ t, S t → y.img t = y'.img t
  sgn : ∀ t, S t → y.sgn t = y'.sgn t

theorem Agree.U {S : Nat → Prop} {y y' : Generator} (h : Agree S y y') (x : Nat × Int) (hx : S x.1) : y.U x = y'.U x := by
  unfold Generator.U; rw [h.img _ hx, h.sgn _ hx]

theorem Agree.iter {S : Nat → Prop} {y y' : Generator} (h : Agree S y y') (hc : ∀ t, S t → S (y.img t)) (n : Nat)
    (x : Nat × Int) (hx : S x.1) : y.U^[n] x = y'.U^[n] x ∧ S (y.U^[n] x).1 := by
  induction n with
  | zero => exact ⟨rfl, hx⟩
  | succ n ih =>
    rw [Function.iterate_succ_apply', Function.iterate_succ_apply', ← ih.1]
    exact ⟨h.U _ ih.2, hc _ ih.2⟩

theorem acts_congr {S : Nat → Prop} {ys ys' : List Generator} (h : List.Forall₂ (Agree S) ys ys') (ha : Acts S ys) : Acts S ys' := by
  have hm : ∀ y' ∈ ys', ∃ y ∈ ys, Agree S y y' := by
    intro y' hy'
    clear ha
    induction h with
    | nil => exact absurd hy' List.not_mem_nil
    | cons h1 h2 ih =>
      rw [List.mem_cons] at hy'
      rcases hy' with rfl | hy'
      · exact ⟨_, by simp, h1⟩
      · obtain ⟨y, e1, e2⟩ := ih hy'
        exact ⟨y, by simp [e1], e2⟩
  constructor
  · intro y' hy'
    obtain ⟨y, e1, e2⟩ := hm y' hy'
    rw [← e2.per]; exact ha.per_pos y e1
  · intro y' hy' t ht
    obtain ⟨y, e1, e2⟩ := hm y' hy'
    rw [← e2.img t ht]; exact ha.closed y e1 t ht
  · intro y' hy' t ht
    obtain ⟨y, e1, e2⟩ := hm y' hy'
    rw [← e2.sgn t ht]; exact ha.sign y e1 t ht
  · intro y' hy' t ht
    obtain ⟨y, e1, e2⟩ := hm y' hy'
    rw [← (e2.iter (ha.closed y e1) y'.per (t, 1) ht).1, ← e2.per]
    exact ha.period y e1 t ht
  · intro y' hy' z' hz' t ht
    obtain ⟨y, e1, e2⟩ := hm y' hy'
    obtain ⟨z, f1, f2⟩ := hm z' hz'
    rw [← f2.U _ ht, ← e2.U (z.U (t, 1)) (ha.closed z f1 t ht), ← e2.U (t, 1) ht,
      ← f2.U (y.U (t, 1)) (ha.closed y e1 t ht)]
    exact ha.commute y e1 z f1 t ht

theorem word_congr {S : Nat → Prop} {ys ys' : List Generator} (h : List.Forall₂ (Agree S) ys ys')
    (hc : ∀ y ∈ ys, ∀ t, S t → S (y.img t)) (cs : List Nat) (x : Nat × Int) (hx : S x.1) :
    word ys cs x = word ys' cs x ∧ S (word ys cs x).1 := by
  induction h generalizing cs with
  | nil => exact ⟨by cases cs <;> rfl, by cases cs <;> exact hx⟩
  | cons h1 h2 ih =>
    cases cs with
    | nil => exact ⟨rfl, hx⟩
    | cons c cs =>
      have := ih (fun y hy => hc y (by simp [hy])) cs
      simp only [word]
      rw [← this.1]
      exact h1.iter (hc _ (by simp)) c _ this.2

theorem exponents_congr {S : Nat → Prop} {ys ys' : List Generator} (h : List.Forall₂ (Agree S) ys ys') :
    exponents ys = exponents ys' := by
  induction h with
  | nil => rfl
  | cons h1 h2 ih => simp only [exponents]; rw [ih, h1.per]

theorem angle_congr {S : Nat → Prop} {ys ys' : List Generator} (h : List.Forall₂ (Agree S) ys ys') (cs : List Nat) :
    angle ys cs = angle ys' cs := by
  induction h generalizing cs with
  | nil => cases cs <;> rfl
  | cons h1 h2 ih =>
    cases cs with
    | nil => rfl
    | cons c cs => simp only [angle]; rw [ih, h1.per, h1.q]

theorem projection_congr {S : Nat → Prop} {ys ys' : List Generator} (h : List.Forall₂ (Agree S) ys ys')
    (hc : ∀ y ∈ ys, ∀ t, S t → S (y.img t)) (s t : Nat) (hs : S s) : projection ys s t = projection ys' s t := by
  unfold projection character
  rw [exponents_congr h]
  congr 1
  apply List.map_congr_left
  intro cs _
  rw [(word_congr h hc cs (s, 1) hs).1, angle_congr h]

theorem related_congr {S : Nat → Prop} {ys ys' : List Generator} (h : List.Forall₂ (Agree S) ys ys')
    (ha : Acts S ys) (s t : Nat) (hs : S s) : Related ys s t ↔ Related ys' s t := by
  rw [related_iff ha s t hs, related_iff (acts_congr h ha) s t hs]
  constructor
  · rintro ⟨cs, h1, h2⟩
    refine ⟨cs, ?_, by rw [← (word_congr h ha.closed cs (s, 1) hs).1]; exact h2⟩
    rw [← mem_exponents, ← exponents_congr h, mem_exponents]; exact h1
  · rintro ⟨cs, h1, h2⟩
    refine ⟨cs, ?_, by rw [(word_congr h ha.closed cs (s, 1) hs).1]; exact h2⟩
    rw [← mem_exponents, exponents_congr h, mem_exponents]; exact h1

end Proof.Chain
