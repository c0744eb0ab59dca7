import Verif.Proof.ChainActs
/-! The bit operations of every kind of chain are the symmetries they should be, and these commute. -/
namespace Proof.Chain
open Spec Model.Chain Proof.Symmetry Proof.Maps
open Spec.Chain (Fits HasFlip)

theorem fits_length {w : Option ℕ} {c : Spec.Chain} (h : Fits w c) : 1 ≤ c.length := by
  cases c <;> exact h.1

theorem fits_base {w : Option ℕ} {c : Spec.Chain} (h : Fits w c) : 0 < c.base := by
  cases c with
  | levels b L => exact h.2
  | _ => exact Nat.two_pos

theorem fermions_base {c : Spec.Chain} (h : c.fermions = true) : c.base = 2 := by
  cases c with
  | levels b L => cases h
  | _ => rfl

theorem spf_halves {w : Option ℕ} {L : ℕ} (hL : 1 ≤ L) (hw : ∀ v, w = some v → 2 * L ≤ v) (s : ℕ) : shr w s L = s >>> L :=
  shr_eq w s L (2 * L) hw (by omega)

theorem shift_isSymmetry {w : Option ℕ} {c : Spec.Chain} (h : Fits w c) (T : ℕ) (h1 : 1 ≤ T) (h2 : T ≤ c.length) (per : ℕ) (q : Int) :
    c.IsSymmetry (c.shift T) (gen (shiftOf w T c) per q) := by
  cases c with
  | twoLevel L => exact ⟨fun s hs => hcpShift_image w false L T s h1 h2 h.2 hs, fun s _ => by simp [gen, shiftOf, hcpShift, Chain.fermions]⟩
  | levels b L => exact ⟨fun s _ => bosonShift_image b L T s h.2 h1 h2, fun s _ => rfl⟩
  | spinless L =>
    exact ⟨fun s hs => hcpShift_image w true L T s h1 h2 (fun v hv => Nat.le_of_lt (h.2 v hv)) hs,
      fun s hs => hcpShift_sign w true L T s h1 h2 h.2 hs⟩
  | spinful L =>
    have hw : Holds w L := fun v hv => by have := h.2 v hv; omega
    have hw' : ∀ v, w = some v → L < v := fun v hv => by have := h.2 v hv; have := h.1; omega
    refine ⟨fun s hs => ?_, fun s hs => ?_⟩
    · obtain ⟨g1, g2⟩ := halves_lt L s hs
      have := bothSpins_image w L (translation L T) (siteMap_translation L T h2) (inverts_translation L T) h.2 s _ _
        (hcpShift_image w true L T _ h1 h2 hw g1) (hcpShift_image w true L T _ h1 h2 hw g2)
      show IsImage 2 (2 * L) (bothSpins L (translation L T)) s (spfShift w L T s).1
      simpa only [spfShift, spf_halves h.1 h.2] using this
    · obtain ⟨g1, g2⟩ := halves_lt L s hs
      show (spfShift w L T s).2 = fermionMapSign (2 * L) (bothSpins L (translation L T)) s
      rw [bothSpins_sign L _ (siteMap_translation L T h2) (inverts_translation L T)]
      simp only [spfShift, spf_halves h.1 h.2]
      rw [hcpShift_sign w true L T _ h1 h2 hw' g1, hcpShift_sign w true L T _ h1 h2 hw' g2]
      rfl

theorem parity_isSymmetry {w : Option ℕ} {c : Spec.Chain} (h : Fits w c) (per : ℕ) (q : Int) :
    c.IsSymmetry c.parity (gen (flipLROf w c) per q) := by
  cases c with
  | twoLevel L => exact ⟨fun s hs => hcpFlipLR_image w false L s h.1 h.2 hs, fun s _ => by simp [gen, flipLROf, hcpFlipLR, Chain.fermions]⟩
  | levels b L => exact ⟨fun s _ => bosonFlipLR_image b L s h.2, fun s _ => rfl⟩
  | spinless L =>
    exact ⟨fun s hs => hcpFlipLR_image w true L s h.1 (fun v hv => Nat.le_of_lt (h.2 v hv)) hs,
      fun s hs => hcpFlipLR_sign w true L s h.2 hs⟩
  | spinful L =>
    have hw : Holds w L := fun v hv => by have := h.2 v hv; omega
    have hw' : ∀ v, w = some v → L < v := fun v hv => by have := h.2 v hv; have := h.1; omega
    refine ⟨fun s hs => ?_, fun s hs => ?_⟩
    · obtain ⟨g1, g2⟩ := halves_lt L s hs
      have := bothSpins_image w L (reflection L) (siteMap_reflection L) (inverts_reflection L) h.2 s _ _
        (hcpFlipLR_image w true L _ h.1 hw g1) (hcpFlipLR_image w true L _ h.1 hw g2)
      show IsImage 2 (2 * L) (bothSpins L (reflection L)) s (spfFlipLR w L s).1
      simpa only [spfFlipLR, spf_halves h.1 h.2] using this
    · obtain ⟨g1, g2⟩ := halves_lt L s hs
      show (spfFlipLR w L s).2 = fermionMapSign (2 * L) (bothSpins L (reflection L)) s
      rw [bothSpins_sign L _ (siteMap_reflection L) (inverts_reflection L)]
      simp only [spfFlipLR, spf_halves h.1 h.2]
      rw [hcpFlipLR_sign w true L _ hw' g1, hcpFlipLR_sign w true L _ hw' g2]
      rfl

theorem flip_isSymmetry {w : Option ℕ} {c : Spec.Chain} (h : Fits w c) (hf : HasFlip c) (per : ℕ) (q : Int) :
    c.IsSymmetry c.flip (gen (flipAllOf w c) per q) := by
  cases c with
  | twoLevel L => exact ⟨fun s hs => hcpFlipAll_image L s hs, fun s _ => rfl⟩
  | levels b L => exact ⟨fun s _ => bosonFlipAll_image b L s h.2, fun s _ => rfl⟩
  | spinless L => exact hf.elim
  | spinful L =>
    have hw' : ∀ v, w = some v → L < v := fun v hv => by have := h.2 v hv; have := h.1; omega
    refine ⟨fun s hs => ?_, fun s hs => ?_⟩
    · have := exchange_image w L h.2 s hs
      show IsImage 2 (2 * L) (spinExchange L) s (spfFlipAll w L s).1
      simpa only [spfFlipAll, spf_halves h.1 h.2] using this
    · obtain ⟨g1, g2⟩ := halves_lt L s hs
      show (spfFlipAll w L s).2 = fermionMapSign (2 * L) (spinExchange L) s
      rw [exchange_sign]
      simp only [spfFlipAll, spf_halves h.1 h.2]
      rw [bitCount_eq w _ L g1 hw', bitCount_eq w _ L g2 hw', count_occupied, count_occupied]
      generalize (occupied L (s >>> L)).card = a
      generalize (occupied L (s &&& (2 ^ L - 1))).card = b
      rcases Nat.mod_two_eq_zero_or_one a with ha | ha
      · rw [if_neg (by omega), Even.neg_one_pow (Nat.even_iff.2 (by rw [Nat.mul_mod, ha, Nat.zero_mul]))]
      · rcases Nat.mod_two_eq_zero_or_one b with hb | hb
        · rw [if_neg (by omega), Even.neg_one_pow (Nat.even_iff.2 (by rw [Nat.mul_mod, hb, Nat.mul_zero]))]
        · rw [if_pos ⟨ha, hb⟩, Odd.neg_one_pow (Nat.odd_iff.2 (by rw [Nat.mul_mod, ha, hb]))]

theorem subA_isSymmetry {w : Option ℕ} {c : Spec.Chain} (h : Fits w c) (hf : c.fermions = false) (per : ℕ) (q : Int) :
    c.IsSymmetry (c.flipOf ((c.length + 1) % 2)) (gen (flipAOf c) per q) := by
  cases c with
  | twoLevel L => exact ⟨fun s hs => hcpFlipSub_image 0 (by omega) L s hs, fun s _ => rfl⟩
  | levels b L => exact ⟨fun s _ => bosonFlipSub_image 0 (by omega) b L s h.2, fun s _ => rfl⟩
  | spinless L => cases hf
  | spinful L => cases hf

theorem subB_isSymmetry {w : Option ℕ} {c : Spec.Chain} (h : Fits w c) (hf : c.fermions = false) (per : ℕ) (q : Int) :
    c.IsSymmetry (c.flipOf (c.length % 2)) (gen (flipBOf c) per q) := by
  have e : ∀ L, (L + 1 + 1) % 2 = L % 2 := fun L => by omega
  cases c with
  | twoLevel L => exact ⟨fun s hs => by have := hcpFlipSub_image 1 (by omega) L s hs; rw [e] at this; exact this, fun s _ => rfl⟩
  | levels b L => exact ⟨fun s _ => by have := bosonFlipSub_image 1 (by omega) b L s h.2; rw [e] at this; exact this, fun s _ => rfl⟩
  | spinless L => cases hf
  | spinful L => cases hf

/-! ### the maps of the sites -/

/-- functions of the sites with their period -/
structure SiteSymm (c : Spec.Chain) (map : List Int) (per : ℕ) : Prop where
  site : SiteFun c.sites c.fermions (dest map) (inverts map)
  pos : 0 < per
  period : ∀ i < c.sites, (iterFun (dest map) (inverts map) per).1 i = i ∧ (iterFun (dest map) (inverts map) per).2 i = false

theorem sends_isSymmetry {c : Spec.Chain} {map : List Int} {y : Generator} (h : c.IsSymmetry map y)
    (hp : c.fermions = true → ∀ i < c.sites, inverts map i = false) (s : ℕ) (hs : s < c.size) :
    Sends c.base c.sites c.fermions (dest map) (inverts map) s (y.img s, y.sgn s) := by
  refine ⟨(h.img s hs).lt, (h.img s hs).occ, ?_⟩
  show y.sgn s = _
  rw [h.sgn s hs]
  cases hf : c.fermions with
  | false => rfl
  | true => rw [if_pos rfl, if_pos rfl, sign_move _ _ _ (hp hf)]

theorem SiteSymm.symm {c : Spec.Chain} {map : List Int} {y : Generator} (h : SiteSymm c map y.per) (hy : c.IsSymmetry map y) :
    Symm c.base c.sites c.fermions (dest map) (inverts map) y :=
  ⟨h.site, h.pos, h.period, fun s hs => sends_isSymmetry hy h.site.pure s hs⟩

/-- two maps commute -/
def SitesCommute (N : ℕ) (m m' : List Int) : Prop :=
  ∀ i < N, dest m (dest m' i) = dest m' (dest m i) ∧
    xor (inverts m' i) (inverts m (dest m' i)) = xor (inverts m i) (inverts m' (dest m i))

theorem acts_of_maps {c : Spec.Chain} (hb : 0 < c.base) (items : List (List Int × Generator))
    (h : ∀ x ∈ items, SiteSymm c x.1 x.2.per ∧ c.IsSymmetry x.1 x.2)
    (hc : ∀ x ∈ items, ∀ x' ∈ items, SitesCommute c.sites x.1 x'.1) : Acts (· < c.size) (items.map (·.2)) := by
  have := acts_of_symm hb (fun hF => fermions_base hF) (items.map fun x => (dest x.1, inverts x.1, x.2))
    (L := c.sites) (F := c.fermions) (by
      intro x hx
      rw [List.mem_map] at hx
      obtain ⟨y, hy, rfl⟩ := hx
      exact (h y hy).1.symm (h y hy).2) (by
      intro x hx x' hx' i hi
      rw [List.mem_map] at hx hx'
      obtain ⟨y, hy, rfl⟩ := hx
      obtain ⟨y', hy', rfl⟩ := hx'
      exact hc y hy y' hy' i hi)
  rw [List.map_map] at this
  exact this

theorem iterFun_pure {N : ℕ} {σ : ℕ → ℕ} {ι : ℕ → Bool} (hr : ∀ i < N, σ i < N) (hp : ∀ i < N, ι i = false) (n i : ℕ) (hi : i < N) :
    (iterFun σ ι n).1 i = σ^[n] i ∧ (iterFun σ ι n).2 i = false ∧ σ^[n] i < N := by
  induction n with
  | zero => exact ⟨rfl, rfl, hi⟩
  | succ n ih =>
    obtain ⟨h1, h2, h3⟩ := ih
    refine ⟨?_, ?_, ?_⟩
    · simp only [iterFun]; rw [h1, Function.iterate_succ_apply']
    · simp only [iterFun]; rw [h1, h2, hp _ h3]; rfl
    · rw [Function.iterate_succ_apply']; exact hr _ h3

theorem shift_iter (L T n i : ℕ) (hi : i < L) : (fun i => (i + T) % L)^[n] i = (i + T * n) % L := by
  induction n with
  | zero => simp [Nat.mod_eq_of_lt hi]
  | succ n ih => rw [Function.iterate_succ_apply', ih]; simp only [Nat.mod_add_mod]; congr 1; ring

theorem iterate_congr {N : ℕ} {σ τ : ℕ → ℕ} (h : ∀ i < N, σ i = τ i) (hr : ∀ i < N, σ i < N) (n i : ℕ) (hi : i < N) :
    σ^[n] i = τ^[n] i ∧ σ^[n] i < N := by
  induction n with
  | zero => exact ⟨rfl, hi⟩
  | succ n ih =>
    rw [Function.iterate_succ_apply', Function.iterate_succ_apply', ← ih.1]
    exact ⟨h _ ih.2, hr _ ih.2⟩

theorem trans_iter (L T n i : ℕ) (hT : T ≤ L) (hi : i < L) : (dest (translation L T))^[n] i = (i + T * n) % L := by
  rw [(iterate_congr (dest_translation L T) (siteMap_translation L T hT).range n i hi).1]
  exact shift_iter L T n i hi

theorem both_iter (L : ℕ) (map : List Int) (h : IsSiteMap L map) (hpos : ∀ i < L, inverts map i = false) (n i : ℕ) (hi : i < 2 * L) :
    (dest (bothSpins L map))^[n] i = (if i < L then (dest map)^[n] i else (dest map)^[n] (i - L) + L) ∧
      (∀ j < L, (dest map)^[n] j < L) := by
  have hlt : ∀ n, ∀ j < L, (dest map)^[n] j < L := fun n j hj => (iterate_congr (fun _ _ => rfl) h.range n j hj).2
  refine ⟨?_, hlt n⟩
  induction n with
  | zero => simp only [Function.iterate_zero, id]; split <;> omega
  | succ n ih =>
    rw [Function.iterate_succ_apply', ih, Function.iterate_succ_apply', Function.iterate_succ_apply']
    by_cases hL : i < L
    · rw [if_pos hL, if_pos hL]
      have h3 := hlt n i hL
      rw [(dest_bothSpins L map h hpos _ (by omega)).1, if_pos h3]
    · rw [if_neg hL, if_neg hL]
      have h3 := hlt n (i - L) (by omega)
      rw [(dest_bothSpins L map h hpos _ (by omega)).1, if_neg (by omega), Nat.add_sub_cancel]

theorem siteFun_of {N : ℕ} {F : Bool} {map : List Int} (h : IsSiteMap N map) (hp : ∀ i < N, inverts map i = false) :
    SiteFun N F (dest map) (inverts map) := ⟨h.range, h.inj, fun _ => hp⟩

theorem siteSymm_pure {c : Spec.Chain} {map : List Int} {per : ℕ} (h : IsSiteMap c.sites map)
    (hp : ∀ i < c.sites, inverts map i = false) (h0 : 0 < per) (hper : ∀ i < c.sites, (dest map)^[per] i = i) : SiteSymm c map per :=
  ⟨siteFun_of h hp, h0, fun i hi => by
    obtain ⟨h1, h2, _⟩ := iterFun_pure h.range hp per i hi
    rw [h1, h2]; exact ⟨hper i hi, rfl⟩⟩

theorem shift_site (c : Spec.Chain) (T n : ℕ) (hT : 0 < T) (hn : 0 < n) (hL : c.length = T * n) : SiteSymm c (c.shift T) n := by
  have hTL : ∀ L, L = T * n → T ≤ L := fun L e => by rw [e]; exact Nat.le_mul_of_pos_right _ hn
  have hid : ∀ L, L = T * n → ∀ i < L, (dest (translation L T))^[n] i = i := fun L e i hi => by
    rw [trans_iter L T n i (hTL L e) hi, ← e, Nat.add_mod_right, Nat.mod_eq_of_lt hi]
  cases c with
  | spinful L =>
    have hm := siteMap_translation L T (hTL L hL)
    refine siteSymm_pure (siteMap_bothSpins L _ hm (inverts_translation L T))
      (fun i hi => (dest_bothSpins L _ hm (inverts_translation L T) i hi).2) hn fun i hi => ?_
    show (dest (bothSpins L (translation L T)))^[n] i = i
    rw [(both_iter L _ hm (inverts_translation L T) n i hi).1]
    split
    · exact hid L hL i (by assumption)
    · rw [hid L hL (i - L) (by have : i < 2 * L := hi; omega)]; omega
  | twoLevel L => exact siteSymm_pure (siteMap_translation L T (hTL L hL)) (inverts_translation L T) hn (hid L hL)
  | levels b L => exact siteSymm_pure (siteMap_translation L T (hTL L hL)) (inverts_translation L T) hn (hid L hL)
  | spinless L => exact siteSymm_pure (siteMap_translation L T (hTL L hL)) (inverts_translation L T) hn (hid L hL)

theorem parity_site (c : Spec.Chain) : SiteSymm c c.parity 2 := by
  have hid : ∀ L, ∀ i < L, (dest (reflection L))^[2] i = i := fun L i hi => by
    show dest (reflection L) (dest (reflection L) i) = i
    rw [dest_reflection L i hi, dest_reflection L _ (by omega)]; omega
  cases c with
  | spinful L =>
    have hm := siteMap_reflection L
    refine siteSymm_pure (siteMap_bothSpins L _ hm (inverts_reflection L))
      (fun i hi => (dest_bothSpins L _ hm (inverts_reflection L) i hi).2) (by omega) fun i hi => ?_
    show (dest (bothSpins L (reflection L)))^[2] i = i
    rw [(both_iter L _ hm (inverts_reflection L) 2 i hi).1]
    split
    · exact hid L i (by assumption)
    · rw [hid L (i - L) (by have : i < 2 * L := hi; omega)]; omega
  | twoLevel L => exact siteSymm_pure (siteMap_reflection L) (inverts_reflection L) (by omega) (hid L)
  | levels b L => exact siteSymm_pure (siteMap_reflection L) (inverts_reflection L) (by omega) (hid L)
  | spinless L => exact siteSymm_pure (siteMap_reflection L) (inverts_reflection L) (by omega) (hid L)

theorem siteSymm_stay {c : Spec.Chain} {map : List Int} (hf : c.fermions = false) (hd : ∀ i < c.sites, dest map i = i) : SiteSymm c map 2 := by
  refine ⟨⟨fun i hi => by rw [hd i hi]; exact hi, fun i hi j hj e => by rwa [hd i hi, hd j hj] at e, fun h => by rw [hf] at h; cases h⟩,
    by omega, fun i hi => ?_⟩
  simp only [iterFun]
  rw [hd i hi, hd i hi]
  refine ⟨rfl, ?_⟩
  cases inverts map i <;> rfl

theorem flip_site (c : Spec.Chain) (hf : HasFlip c) : SiteSymm c c.flip 2 := by
  cases c with
  | spinful L =>
    refine siteSymm_pure (siteMap_exchange L) (fun i hi => (dest_exchange L i hi).2) (by omega) fun i hi => ?_
    have hi' : i < 2 * L := hi
    show dest (spinExchange L) (dest (spinExchange L) i) = i
    rw [(dest_exchange L i hi).1]
    split
    · rw [(dest_exchange L _ (by omega)).1, if_neg (by omega)]; omega
    · rw [(dest_exchange L _ (by omega)).1, if_pos (by omega)]; omega
  | twoLevel L => exact siteSymm_stay rfl (dest_inversion L)
  | levels b L => exact siteSymm_stay rfl (dest_inversion L)
  | spinless L => exact hf.elim

theorem sub_site (c : Spec.Chain) (r : ℕ) (hf : c.fermions = false) : SiteSymm c (c.flipOf r) 2 := by
  refine siteSymm_stay hf fun i hi => dest_inversionOf r _ i ?_
  cases c with
  | spinful L => cases hf
  | _ => exact hi

/-! ### commutation -/

theorem SitesCommute.refl (N : ℕ) (m : List Int) : SitesCommute N m m := fun _ _ => ⟨rfl, rfl⟩

theorem SitesCommute.symm {N : ℕ} {m m' : List Int} (h : SitesCommute N m m') : SitesCommute N m' m :=
  fun i hi => ⟨(h i hi).1.symm, (h i hi).2.symm⟩

/-- a map without inversions commutes with inversion of all sites and with exchange of the spins -/
theorem both_exchange (L : ℕ) (map : List Int) (h : IsSiteMap L map) (hpos : ∀ i < L, inverts map i = false) :
    SitesCommute (2 * L) (bothSpins L map) (spinExchange L) := by
  intro i hi
  have e1 := dest_exchange L i hi
  have e2 := dest_bothSpins L map h hpos i hi
  have hr := (siteMap_bothSpins L map h hpos).range i hi
  have hx := (siteMap_exchange L).range i hi
  rw [e1.2, e2.2, (dest_bothSpins L map h hpos _ hx).2, (dest_exchange L _ hr).2]
  refine ⟨?_, rfl⟩
  rw [e1.1, e2.1]
  by_cases hL : i < L
  · have := h.range i hL
    rw [if_pos hL, if_pos hL, (dest_bothSpins L map h hpos (i + L) (by omega)).1, (dest_exchange L _ (by omega)).1, if_neg (by omega),
      if_pos this, Nat.add_sub_cancel]
  · have := h.range (i - L) (by omega)
    rw [if_neg hL, if_neg hL, (dest_bothSpins L map h hpos (i - L) (by omega)).1, (dest_exchange L _ (by omega)).1, if_pos (by omega),
      if_neg (by omega), Nat.add_sub_cancel]

theorem stay_commute {N : ℕ} {m m' : List Int} (hr : ∀ i < N, dest m i < N) (hp : ∀ i < N, inverts m i = false)
    (hd : ∀ i < N, dest m' i = i) (hi : ∀ i < N, inverts m' (dest m i) = inverts m' i) : SitesCommute N m m' := by
  intro i hi'
  rw [hd i hi', hd _ (hr i hi'), hp i hi', hi i hi', Bool.false_xor, Bool.xor_false]
  exact ⟨rfl, rfl⟩

theorem shift_flip (c : Spec.Chain) (T : ℕ) (hT : T ≤ c.length) : SitesCommute c.sites (c.shift T) c.flip := by
  have key : ∀ L, T ≤ L → SitesCommute L (translation L T) (inversion L) := fun L hL =>
    stay_commute (siteMap_translation L T hL).range (inverts_translation L T) (dest_inversion L) fun i hi => by
      rw [inverts_inversion L i hi, inverts_inversion L _ ((siteMap_translation L T hL).range i hi)]
  cases c with
  | spinful L => exact both_exchange L _ (siteMap_translation L T hT) (inverts_translation L T)
  | twoLevel L => exact key L hT
  | levels b L => exact key L hT
  | spinless L => exact key L hT

theorem parity_flip (c : Spec.Chain) : SitesCommute c.sites c.parity c.flip := by
  have key : ∀ L, SitesCommute L (reflection L) (inversion L) := fun L =>
    stay_commute (siteMap_reflection L).range (inverts_reflection L) (dest_inversion L) fun i hi => by
      rw [inverts_inversion L i hi, inverts_inversion L _ ((siteMap_reflection L).range i hi)]
  cases c with
  | spinful L => exact both_exchange L _ (siteMap_reflection L) (inverts_reflection L)
  | twoLevel L => exact key L
  | levels b L => exact key L
  | spinless L => exact key L

theorem shift_sub (c : Spec.Chain) (T n r : ℕ) (hf : c.fermions = false) (hT : T % 2 = 0) (hn : 0 < n) (hL : c.length = T * n) :
    SitesCommute c.sites (c.shift T) (c.flipOf r) := by
  have key : ∀ L, L = T * n → SitesCommute L (translation L T) (inversionOf r L) := fun L e => by
    have hTL : T ≤ L := by rw [e]; exact Nat.le_mul_of_pos_right _ hn
    have heven : L % 2 = 0 := by rw [e, Nat.mul_mod, hT, Nat.zero_mul, Nat.zero_mod]
    refine stay_commute (siteMap_translation L T hTL).range (inverts_translation L T) (dest_inversionOf r L) fun i hi => ?_
    rw [inverts_inversionOf r L i hi, inverts_inversionOf r L _ ((siteMap_translation L T hTL).range i hi), dest_translation L T i hi]
    have : (i + T) % L % 2 = i % 2 := by
      rcases add_mod_cases L T i hi hTL with ⟨_, e⟩ | ⟨_, e⟩ <;> rw [e] <;> omega
    rw [this]
  cases c with
  | spinful L => cases hf
  | spinless L => cases hf
  | twoLevel L => exact key L hL
  | levels b L => exact key L hL

theorem sub_sub (c : Spec.Chain) (r r' : ℕ) (hf : c.fermions = false) : SitesCommute c.sites (c.flipOf r) (c.flipOf r') := by
  have hs : c.sites = c.length := by cases c <;> first | rfl | cases hf
  intro i hi
  rw [hs] at hi
  unfold Chain.flipOf
  rw [dest_inversionOf _ _ i hi, dest_inversionOf _ _ i hi, dest_inversionOf _ _ i hi, Bool.xor_comm]
  exact ⟨rfl, rfl⟩

/-- a symmetry is determined by its map -/
theorem isSymmetry_agree {c : Spec.Chain} {map : List Int} {per : ℕ} (h : SiteSymm c map per) {y y' : Generator}
    (hy : c.IsSymmetry map y) (hy' : c.IsSymmetry map y') (hp : y.per = y'.per) (hq : y.q = y'.q) : Agree (· < c.size) y y' := by
  have key : ∀ t, t < c.size → (y.img t, y.sgn t) = (y'.img t, y'.sgn t) := fun t ht =>
    Sends.unique h.site (fun _ _ => rfl) (fun _ _ => rfl) (sends_isSymmetry hy h.site.pure t ht) (sends_isSymmetry hy' h.site.pure t ht)
  exact ⟨hp, hq, fun t ht => congrArg Prod.fst (key t ht), fun t ht => congrArg Prod.snd (key t ht)⟩

end Proof.Chain
