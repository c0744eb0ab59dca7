import Verif.Model.Reserve
import Verif.Proof.ReserveStates
import Verif.Proof.ReserveOrbits
import Verif.Proof.ChainPlain
import Verif.Props.C38
import Verif.Props.C63
import Verif.Props.C06
import Verif.Props.C67
import Verif.Props.C65
import Verif.Props.C76
/-!
C113: the constructor of a one-dimensional basis writes the states of a momentum block to arrays whose length it has estimated
before, without looking at the length.  The arrays are long enough.
-/
namespace Props
open Spec Model.Chain Proof.Reserve Proof.Chain
open Model (hDim)
open Spec.Chain (Fits HasFlip)
open scoped BigOperators

/-- `s` is the largest of its translates by `T` sites, `2T` sites, … -/
def LargestTranslate (c : Spec.Chain) (T s : ℕ) : Prop := ∀ y, c.IsSymmetry (c.shift T) y → ∀ j, y.img^[j] s ≤ s

/-- The block keeps no state but those that are the largest of their translates, each once. -/
def KeepsLargest {α : Type} (c : Spec.Chain) (T : ℕ) (keep : ℕ → List α) : Prop :=
  ∀ s < c.size, (keep s).length ≤ 1 ∧ (keep s ≠ [] → LargestTranslate c T s)

/-- The entries of the block that are made from the states `vis` can be assigned to states among `vis`, no two of which are translates of
each other: with reflections a state may be kept twice, once for itself and once for the reflected state. -/
def OwnOrbits {α : Type} (c : Spec.Chain) (T : ℕ) (vis : List ℕ) (keep : ℕ → List α) : Prop :=
  ∃ place : ℕ → ℕ → ℕ, (∀ s ∈ vis, ∀ i < (keep s).length, place s i ∈ vis) ∧
    ∀ s ∈ vis, ∀ t ∈ vis, ∀ i < (keep s).length, ∀ j < (keep t).length, ∀ y, c.IsSymmetry (c.shift T) y → ∀ k,
      y.img^[k] (place s i) = place t j → s = t ∧ i = j

/-- Whatever block with momentum is made from the states of the sectors, its states fit in the memory reserved for `n` translations
and `Ns` states. -/
def Enough (c : Spec.Chain) (T n : ℕ) (sectors : List (List ℕ)) (Ns : ℕ) : Prop :=
  ∀ (α : Type) (keep : ℕ → List α), KeepsLargest c T keep ∨ (∀ vis ∈ sectors, OwnOrbits c T vis keep) →
    (fillBlocks (reserved Ns n) keep sectors).isSome

/-! ### general -/

/-- what is used of a sector -/
structure SectorFacts (b m T n wgt : ℕ) (ch : Fin m → ℕ) (vis : List ℕ) (N : ℕ) : Prop where
  inc : vis.Pairwise (· < ·)
  mem : ∀ s ∈ vis, s < b ^ (m * (T * n)) ∧ Charged b m T n wgt ch s
  all : ∃ es : List ℕ, es.length = N ∧ es.Nodup ∧ ∀ s, s ∈ es ↔ s < b ^ (m * (T * n)) ∧ Charged b m T n wgt ch s

/-- what is used of a chain -/
structure ChainFacts (c : Spec.Chain) (b m T n : ℕ) : Prop where
  pos : 0 < b
  size : c.size = b ^ (m * (T * n))
  ex : ∃ y, c.IsSymmetry (c.shift T) y
  tr : ∀ y, c.IsSymmetry (c.shift T) y → Translates b m T n y.img

theorem translates_back {b m T n : ℕ} [NeZero n] (hb : 0 < b) {f : ℕ → ℕ} (hf : Translates b m T n f) {s : ℕ} (hs : s < b ^ (m * (T * n))) (k : ℕ) :
    f^[(n - 1) * k] (f^[k] s) = s := by
  have h := conf_iter (n := n) hb hf hs ((n - 1) * k + k)
  rw [Function.iterate_add_apply] at h
  refine Proof.Reserve.conf_inj (m := m) (T := T) (n := n) hb h.1 hs (funext fun j => ?_)
  rw [h.2]
  congr 1
  have hn : 0 < n := NeZero.pos n
  have : (n - 1) * k + k = n * k := by
    obtain ⟨n', rfl⟩ : ∃ n', n = n' + 1 := ⟨n - 1, by omega⟩
    rw [Nat.add_sub_cancel]; ring
  rw [this]
  simp

theorem own_of_largest {c : Spec.Chain} {b m T n : ℕ} [NeZero n] (hc : ChainFacts c b m T n) {vis : List ℕ} (hv : ∀ s ∈ vis, s < b ^ (m * (T * n)))
    {α : Type} (keep : ℕ → List α) (hk : KeepsLargest c T keep) : OwnOrbits c T vis keep := by
  refine ⟨fun s _ => s, fun s hs _ _ => hs, fun s hs t ht i hi j hj y hy k e => ?_⟩
  simp only at e
  have hs' := hv s hs
  have ht' := hv t ht
  have ks := hk s (by rw [hc.size]; exact hs')
  have kt := hk t (by rw [hc.size]; exact ht')
  have h1 := ks.2 (fun h => by simp [h] at hi) y hy k
  have h2 := kt.2 (fun h => by simp [h] at hj) y hy ((n - 1) * k)
  rw [← e, translates_back hc.pos (hc.tr y hy) hs' k, e] at h2
  rw [e] at h1
  exact ⟨by omega, by omega⟩

/-- the states written for one sector -/
theorem entries_length {c : Spec.Chain} {b m T n : ℕ} {wgt N : ℕ} {ch : Fin m → ℕ} {vis : List ℕ}
    (h : SectorFacts b m T n wgt ch vis N) {α : Type} (keep : ℕ → List α) (hk : OwnOrbits c T vis keep) (hex : ∃ y, c.IsSymmetry (c.shift T) y) :
    ∃ l : List ℕ, (vis.flatMap fun s => (keep s).map fun d => (s, d)).length ≤ l.length ∧ l.Nodup ∧
      (∀ s ∈ l, s < b ^ (m * (T * n)) ∧ Charged b m T n wgt ch s) ∧
      ∀ y, c.IsSymmetry (c.shift T) y → ∀ s ∈ l, ∀ t ∈ l, ∀ k, y.img^[k] s = t → s = t := by
  obtain ⟨place, hin, hown⟩ := hk
  obtain ⟨y₀, hy₀⟩ := hex
  have hmem : ∀ x, x ∈ (vis.flatMap fun s => (List.range (keep s).length).map (place s)) → ∃ s ∈ vis, ∃ i < (keep s).length, place s i = x := by
    intro x hx
    obtain ⟨s, hs, hx⟩ := List.mem_flatMap.1 hx
    obtain ⟨i, hi, e⟩ := List.mem_map.1 hx
    exact ⟨s, hs, i, List.mem_range.1 hi, e⟩
  refine ⟨vis.flatMap fun s => (List.range (keep s).length).map (place s), ?_, ?_, ?_, ?_⟩
  · simp [List.length_flatMap]
  · rw [List.nodup_flatMap]
    refine ⟨fun s hs => ?_, ?_⟩
    · refine List.Nodup.map_on ?_ List.nodup_range
      intro i hi j hj e
      exact (hown s hs s hs i (List.mem_range.1 hi) j (List.mem_range.1 hj) y₀ hy₀ 0 e).2
    · refine h.inc.imp_of_mem ?_
      intro s t hs ht hst x hxs hxt
      obtain ⟨i, hi, e⟩ := List.mem_map.1 hxs
      obtain ⟨j, hj, e'⟩ := List.mem_map.1 hxt
      have := (hown s hs t ht i (List.mem_range.1 hi) j (List.mem_range.1 hj) y₀ hy₀ 0 (e.trans e'.symm)).1
      omega
  · intro x hx
    obtain ⟨s, hs, i, hi, e⟩ := hmem x hx
    rw [← e]
    exact h.mem _ (hin s hs i hi)
  · intro y hy x hx x' hx' k e
    obtain ⟨s, hs, i, hi, rfl⟩ := hmem x hx
    obtain ⟨t, ht, j, hj, rfl⟩ := hmem x' hx'
    obtain ⟨rfl, rfl⟩ := hown s hs t ht i hi j hj y hy k e
    rfl

theorem one_sector {c : Spec.Chain} {b m T n : ℕ} [NeZero n] (hc : ChainFacts c b m T n) {wgt N : ℕ} {ch : Fin m → ℕ} {vis : List ℕ}
    (h : SectorFacts b m T n wgt ch vis N) {α : Type} (keep : ℕ → List α) (hk : OwnOrbits c T vis keep) :
    ((vis.flatMap fun s => (keep s).map fun d => (s, d)).length : ℝ) ≤ (1 + 1 / n) * N / n + n ∧
    (8 * n ^ 3 ≤ N → ((vis.flatMap fun s => (keep s).map fun d => (s, d)).length : ℝ) ≤ (1 + 1 / n) * N / n) := by
  obtain ⟨l, h1, h2, h3, h4⟩ := entries_length h keep hk hc.ex
  obtain ⟨y, hy⟩ := hc.ex
  obtain ⟨es, e1, e2, e3⟩ := h.all
  have h1' : ((vis.flatMap fun s => (keep s).map fun d => (s, d)).length : ℝ) ≤ l.length := by exact_mod_cast h1
  constructor
  · have := states_bound hc.pos (hc.tr y hy) wgt ch es l (fun s hs hq => (e3 s).2 ⟨hs, hq⟩) h2 h3 (h4 y hy)
    rw [e1] at this
    exact h1'.trans this
  · intro hbig
    have := states_bound_large hc.pos (hc.tr y hy) wgt ch es l (fun s hs hq => (e3 s).2 ⟨hs, hq⟩) (fun s hs => (e3 s).1 hs) e2 h2 h3 (h4 y hy)
      (by rw [e1]; exact hbig)
    rw [e1] at this
    exact h1'.trans this

theorem le_reserved {l Ns n : ℕ} (h : (l : ℝ) ≤ (1 + 1 / n) * Ns / n + n) : l ≤ reserved Ns n := by
  refine Nat.le_floor ?_
  have : ((l : ℚ) : ℝ) ≤ (((1 + 1 / (n : ℚ)) * Ns / n + n : ℚ) : ℝ) := by push_cast; exact h
  exact_mod_cast this

theorem enough_one {c : Spec.Chain} {b m T n : ℕ} [NeZero n] (hc : ChainFacts c b m T n) {wgt N : ℕ} {ch : Fin m → ℕ} {vis : List ℕ}
    (h : SectorFacts b m T n wgt ch vis N) : Enough c T n [vis] N := by
  intro α keep hk
  have hk : OwnOrbits c T vis keep := by
    rcases hk with hk | hk
    · exact own_of_largest hc (fun s hs => (h.mem s hs).1) keep hk
    · exact hk vis (by simp)
  unfold fillBlocks
  simp only [List.map_cons, List.map_nil, List.flatten_cons, List.flatten_nil, List.append_nil]
  rw [if_neg (Nat.not_lt.2 (le_reserved (one_sector hc h keep hk).1))]
  rfl

/-- several sectors, all but one of them large -/
theorem enough_many {c : Spec.Chain} {b m T n : ℕ} [NeZero n] (hc : ChainFacts c b m T n) {κ : Type} (wgt : ℕ) (ch : κ → Fin m → ℕ) (vis : κ → List ℕ)
    (N : κ → ℕ) (ks ks' : List κ) (k₀ : κ) (h : ∀ k ∈ ks ++ k₀ :: ks', SectorFacts b m T n wgt (ch k) (vis k) (N k))
    (hbig : ∀ k ∈ ks ++ ks', 8 * n ^ 3 ≤ N k) : Enough c T n ((ks ++ k₀ :: ks').map vis) (((ks ++ k₀ :: ks').map N).sum) := by
  intro α keep hk
  have hk : ∀ k ∈ ks ++ k₀ :: ks', OwnOrbits c T (vis k) keep := by
    intro k hkm
    rcases hk with hk | hk
    · exact own_of_largest hc (fun s hs => ((h k hkm).mem s hs).1) keep hk
    · exact hk _ (List.mem_map_of_mem hkm)
  have key : ∀ l : List κ, (∀ k ∈ l, SectorFacts b m T n wgt (ch k) (vis k) (N k)) → (∀ k ∈ l, OwnOrbits c T (vis k) keep) → (∀ k ∈ l, 8 * n ^ 3 ≤ N k) →
      (((l.map vis).map fun v => v.flatMap fun s => (keep s).map fun d => (s, d)).flatten.length : ℝ) ≤ (1 + 1 / n) * ((l.map N).sum : ℕ) / n := by
    intro l hl ho hb
    induction l with
    | nil => simp
    | cons k l ih =>
      have h1 := (one_sector hc (hl k (by simp)) keep (ho k (by simp))).2 (hb k (by simp))
      have h2 := ih (fun k hk => hl k (by simp [hk])) (fun k hk => ho k (by simp [hk])) fun k hk => hb k (by simp [hk])
      simp only [List.map_cons, List.flatten_cons, List.length_append, List.sum_cons]
      push_cast at h2 ⊢
      have : (1 + 1 / (n : ℝ)) * (N k + ((l.map N).sum : ℕ)) / n = (1 + 1 / n) * N k / n + (1 + 1 / n) * ((l.map N).sum : ℕ) / n := by ring
      push_cast at this
      rw [this]
      linarith
  have k1 := key ks (fun k hk => h k (by simp [hk])) (fun k h' => hk k (by simp [h'])) fun k hk => hbig k (by simp [hk])
  have k2 := key ks' (fun k hk => h k (by simp [hk])) (fun k h' => hk k (by simp [h'])) fun k hk => hbig k (by simp [hk])
  have k3 := (one_sector hc (h k₀ (by simp)) keep (hk k₀ (by simp))).1
  unfold fillBlocks
  dsimp only
  rw [if_neg (Nat.not_lt.2 (le_reserved ?_))]
  · rfl
  simp only [List.map_append, List.map_cons, List.flatten_append, List.flatten_cons, List.length_append, List.sum_append, List.sum_cons]
  simp only [Nat.cast_add]
  have : (1 + 1 / (n : ℝ)) * (((ks.map N).sum : ℕ) + ((N k₀ : ℕ) + ((ks'.map N).sum : ℕ))) / n + n =
      (1 + 1 / n) * ((ks.map N).sum : ℕ) / n + ((1 + 1 / n) * N k₀ / n + n) + (1 + 1 / n) * ((ks'.map N).sum : ℕ) / n := by ring
  rw [this]
  linarith

/-! ### the chains -/

theorem facts_simple (c : Spec.Chain) (T n : ℕ) (hT : 0 < T) (hn : 0 < n) (hb : 0 < c.base) (hsites : c.sites = T * n) (hlen : c.length = T * n)
    (hshift : c.shift T = translation (T * n) T) (hfit : Fits none c) : ChainFacts c c.base 1 T n where
  pos := hb
  size := by unfold Spec.Chain.size; rw [hsites, one_mul]
  ex := ⟨_, shift_isSymmetry hfit T hT (by rw [hlen]; exact Nat.le_mul_of_pos_right _ hn) 1 0⟩
  tr := fun y hy s hs => by
    rw [one_mul] at hs ⊢
    have hi := hy.img s (by unfold Spec.Chain.size; rw [hsites]; exact hs)
    rw [hsites, hshift] at hi
    refine ⟨hi.lt, fun u hu i hi' => ?_⟩
    have hu0 : u = 0 := by omega
    have h := hi.occ i hi'
    rw [dest_translation _ _ _ hi', inverts_translation _ _ _ hi'] at h
    rw [hu0, zero_mul, zero_add, zero_add, h]
    rfl

theorem facts_twoLevel (T n : ℕ) (hT : 0 < T) (hn : 0 < n) : ChainFacts (.twoLevel (T * n)) 2 1 T n :=
  facts_simple _ T n hT hn Nat.two_pos rfl rfl rfl ⟨Nat.mul_pos hT hn, fun v h => by cases h⟩

theorem facts_spinless (T n : ℕ) (hT : 0 < T) (hn : 0 < n) : ChainFacts (.spinless (T * n)) 2 1 T n :=
  facts_simple _ T n hT hn Nat.two_pos rfl rfl rfl ⟨Nat.mul_pos hT hn, fun v h => by cases h⟩

theorem facts_levels (b T n : ℕ) (hb : 0 < b) (hT : 0 < T) (hn : 0 < n) : ChainFacts (.levels b (T * n)) b 1 T n :=
  facts_simple (.levels b (T * n)) T n hT hn hb rfl rfl rfl ⟨Nat.mul_pos hT hn, hb⟩

theorem facts_spinful (T n : ℕ) (hT : 0 < T) (hn : 0 < n) : ChainFacts (.spinful (T * n)) 2 2 T n where
  pos := by decide
  size := rfl
  ex := ⟨_, shift_isSymmetry (w := none) (c := .spinful (T * n)) ⟨Nat.mul_pos hT hn, fun v h => by cases h⟩ T hT (Nat.le_mul_of_pos_right _ hn) 1 0⟩
  tr := fun y hy s hs => by
    have hi := hy.img s hs
    refine ⟨hi.lt, fun u hu i hi' => ?_⟩
    have hle : T ≤ T * n := Nat.le_mul_of_pos_right _ hn
    have hsite : u * (T * n) + i < 2 * (T * n) := by
      rcases (by omega : u = 0 ∨ u = 1) with rfl | rfl <;> omega
    have h := hi.occ (u * (T * n) + i) hsite
    have hd := dest_bothSpins (T * n) (translation (T * n) T) (siteMap_translation _ _ hle) (fun i hi => inverts_translation _ _ _ hi) _ hsite
    change Spec.occ 2 (2 * (T * n)) (y.img s) (dest (bothSpins (T * n) (translation (T * n) T)) (u * (T * n) + i)) =
      flipIf 2 (inverts (bothSpins (T * n) (translation (T * n) T)) (u * (T * n) + i)) (Spec.occ 2 (2 * (T * n)) s (u * (T * n) + i)) at h
    rw [hd.1, hd.2] at h
    have e : (if u * (T * n) + i < T * n then dest (translation (T * n) T) (u * (T * n) + i)
        else dest (translation (T * n) T) (u * (T * n) + i - T * n) + T * n) = u * (T * n) + (i + T) % (T * n) := by
      rcases (by omega : u = 0 ∨ u = 1) with rfl | rfl
      · rw [if_pos (by omega), dest_translation _ _ _ (by omega)]; simp
      · rw [if_neg (by omega), show 1 * (T * n) + i - T * n = i by omega, dest_translation _ _ _ hi']; omega
    rw [e] at h
    rw [h]
    rfl

/-! ### the sectors -/

theorem charged_one (b T n : ℕ) (k s : ℕ) : Charged b 1 T n 1 (fun _ => k) s ↔ dsum b (T * n) s = k := by
  unfold Charged
  rw [dsum_occ]
  simp

theorem sectorFacts_B (b T n k : ℕ) : SectorFacts b 1 T n 1 (fun _ => k) (sectorB b (T * n) k) (sectorB b (T * n) k).length where
  inc := List.Pairwise.filter _ List.pairwise_lt_range
  mem := fun s hs => by
    rw [one_mul, charged_one]
    simpa [sectorB] using hs
  all := ⟨_, rfl, (List.Pairwise.filter _ List.nodup_range), fun s => by rw [one_mul, charged_one]; simp [sectorB]⟩

theorem sector_eq_B (L k : ℕ) : sector L k = sectorB 2 L k := by
  unfold sector sectorB
  simp only [dsum_two]

theorem hDim_length (b L k : ℕ) (hb : 0 < b) (hL : 0 < L) : (hDim k L (b - 1)).toNat = (sectorB b L k).length := by
  obtain ⟨n, rfl⟩ : ∃ n, L = n + 1 := ⟨L - 1, by omega⟩
  rw [Proof.HDim.hDim_eq b n k hb]; rfl

theorem countStates_sum (b L : ℕ) (hb : 0 < b) (hL : 0 < L) (ks : List ℕ) :
    countStates b L (some ks) = (ks.map fun k => (sectorB b L k).length).sum := by
  obtain ⟨n, rfl⟩ : ∃ n, L = n + 1 := ⟨L - 1, by omega⟩
  exact sum_toNat_ge _ _ ks fun k _ => Proof.HDim.hDim_eq b n k hb

theorem split_small {κ : Type} (big : κ → Prop) [DecidablePred big] (ks : List κ) (hne : ks ≠ []) (h : (ks.filter fun k => ¬big k).length ≤ 1) :
    ∃ l k₀ l', ks = l ++ k₀ :: l' ∧ ∀ k ∈ l ++ l', big k := by
  induction ks with
  | nil => exact absurd rfl hne
  | cons k ks ih =>
    rw [List.filter_cons] at h
    by_cases hk : big k
    · rw [if_neg (by simpa using hk)] at h
      by_cases hn : ks = []
      · exact ⟨[], k, [], by rw [hn]; rfl, by simp⟩
      obtain ⟨l, k₀, l', e, hb⟩ := ih hn h
      refine ⟨k :: l, k₀, l', by rw [e]; rfl, fun x hx => ?_⟩
      rw [List.cons_append, List.mem_cons] at hx
      rcases hx with rfl | hx
      · exact hk
      · exact hb x hx
    · rw [if_pos (by simpa using hk), List.length_cons] at h
      have h0 : ks.filter (fun k => ¬big k) = [] := List.length_eq_zero_iff.1 (by omega)
      refine ⟨[], k, ks, rfl, fun x hx => ?_⟩
      have := List.filter_eq_nil_iff.1 h0 x (by simpa using hx)
      simpa using this

theorem enough_of_facts {c : Spec.Chain} {b m T n : ℕ} (hn : 0 < n) (hc : ChainFacts c b m T n) {κ : Type} (wgt : ℕ) (ch : κ → Fin m → ℕ)
    (vis : κ → List ℕ) (N : κ → ℕ) (ks : List κ) (hne : ks ≠ []) (h : ∀ k ∈ ks, SectorFacts b m T n wgt (ch k) (vis k) (N k))
    (hbig : (ks.filter fun k => N k < 8 * n ^ 3).length ≤ 1) : Enough c T n (ks.map vis) ((ks.map N).sum) := by
  have : NeZero n := ⟨hn.ne'⟩
  obtain ⟨l, k₀, l', rfl, hb⟩ := split_small (fun k => 8 * n ^ 3 ≤ N k) ks hne (by simpa only [not_le] using hbig)
  exact enough_many hc wgt ch vis N l l' k₀ h hb

theorem boson_sectors (L wide sps : ℕ) (h0 : 0 < L) (hb : 2 < sps) (hb' : sps ≤ 256) (hw : sps ^ (L + 1) ≤ 2 ^ wide) (ks : List ℕ)
    (hle : ∀ k ∈ ks, k ≤ L * (sps - 1)) (t : Option ℕ) (ht : basisType L sps (some ks) = some t) (k : ℕ) (hk : k ∈ ks) :
    sectorBoson (widthOf t wide) sps L k = sectorB sps L k := by
  have hpow : sps ^ L ≤ 2 ^ wide ∧ sps ^ L + sps ≤ 2 ^ wide := by
    rw [Nat.pow_succ] at hw
    have h1 : sps ^ 1 ≤ sps ^ L := Nat.pow_le_pow_right (by omega) h0
    have h2 : sps ^ L * 3 ≤ sps ^ L * sps := Nat.mul_le_mul_left _ (by omega)
    rw [Nat.pow_one] at h1
    omega
  have key : (∀ x, x < sps ^ L → dsum sps L x ≤ k → x < 2 ^ widthOf t wide) ∧ Proof.Digits.topfill sps L k < 2 ^ widthOf t wide := by
    cases ks with
    | nil => simp at hk
    | cons a ks =>
      simp only [basisType, Option.some.injEq] at ht
      have hm : k ≤ ks.foldl max a := by
        rcases List.mem_cons.1 hk with rfl | h
        · exact (foldl_max_le ks k).1
        · exact (foldl_max_le ks a).2 k h
      have hmL : ks.foldl max a ≤ L * (sps - 1) := by
        rcases foldl_max_mem ks a with h | h
        · rw [h]; exact hle a (by simp)
        · exact hle _ (by simp [h])
      rw [Proof.Boson.smax_eq sps L _ hb hmL] at ht
      have hall : ∀ x, x < sps ^ L → dsum sps L x ≤ k → x < 2 ^ widthOf t wide := by
        intro x hx hd
        cases t with
        | none => exact Nat.lt_of_lt_of_le hx hpow.1
        | some w =>
          have := Proof.Digits.le_topfill sps L x (ks.foldl max a) (by omega) hx (by omega)
          exact Nat.lt_of_le_of_lt this (typeFor_spec ht).1
      exact ⟨hall, hall _ (Proof.Boson.topfill_lt sps L k hb) (topfill_dsum sps hb L k (hle k hk)).le⟩
  refine boson_sector_eq _ sps L k h0 hb (hle k hk) key.2 key.1 ?_
  intro h1 h2
  cases t with
  | none =>
    have := Proof.Boson.topfill_lt sps L k hb
    have h3 : k % (sps - 1) < sps - 1 := Nat.mod_lt _ (by omega)
    show _ < 2 ^ wide
    omega
  | some w =>
    refine Proof.Boson.room w sps L k ?_ hb hb' key.2 h1 h2
    cases ks with
    | nil => simp at hk
    | cons a ks =>
      simp only [basisType, Option.some.injEq] at ht
      rcases (typeFor_spec ht).2 with rfl | rfl <;> decide

theorem spf_sectors (L wide : ℕ) (h0 : 0 < L) (hw : 2 * L ≤ wide) (dbl : Bool) (ps : List (ℕ × ℕ)) (hle : ∀ p ∈ ps, p.1 ≤ L ∧ p.2 ≤ L)
    (t : Option ℕ) (ht : basisTypeSpf L (some ps) = some t) : ∀ p ∈ ps, (sectorSpf (widthOf t wide) L dbl p).Pairwise (· < ·) ∧
      (sectorSpf (widthOf t wide) L dbl p).length ≤ L.choose p.1 * L.choose p.2 ∧
      ∀ s, s ∈ sectorSpf (widthOf t wide) L dbl p ↔ InSector L dbl p s := by
  intro p hp
  by_cases hz : p.1 = 0 ∧ p.2 = 0
  · exact spf_empty (widthOf t wide) L dbl p hz
  refine spf_sector_mem _ L dbl p ?_ (hle p hp).2
  cases ps with
  | nil => simp at hp
  | cons q ps =>
    simp only [basisTypeSpf, Option.some.injEq] at ht
    subst ht
    have m1 : p.1 ≤ (ps.map (·.1)).foldl max q.1 := by
      rcases List.mem_cons.1 hp with rfl | h
      · exact (foldl_max_le _ _).1
      · exact (foldl_max_le _ _).2 _ (List.mem_map_of_mem h)
    have m2 : p.2 ≤ (ps.map (·.2)).foldl max q.2 := by
      rcases List.mem_cons.1 hp with rfl | h
      · exact (foldl_max_le _ _).1
      · exact (foldl_max_le _ _).2 _ (List.mem_map_of_mem h)
    have n1 : (ps.map (·.1)).foldl max q.1 ≤ L := by
      rcases foldl_max_mem (ps.map (·.1)) q.1 with h | h
      · rw [h]; exact (hle q (by simp)).1
      · obtain ⟨r, hr, e⟩ := List.mem_map.1 h
        rw [← e]; exact (hle r (by simp [hr])).1
    have n2 : (ps.map (·.2)).foldl max q.2 ≤ L := by
      rcases foldl_max_mem (ps.map (·.2)) q.2 with h | h
      · rw [h]; exact (hle q (by simp)).2
      · obtain ⟨r, hr, e⟩ := List.mem_map.1 h
        rw [← e]; exact (hle r (by simp [hr])).2
    rw [smax_two L _ n1, smax_two L _ n2, Nat.shiftLeft_eq]
    generalize (ps.map (·.1)).foldl max q.1 = a at *
    generalize (ps.map (·.2)).foldl max q.2 = b at *
    by_cases ha : a = 0
    · right
      refine ⟨by omega, ?_⟩
      apply typeFor_width _ h0 (by omega)
      have := top_ge L b (by omega) n2
      omega
    · left
      apply typeFor_width _ (by omega) hw
      have := top_ge L a (by omega) n1
      have h2 := Nat.mul_le_mul_right (2 ^ L) this
      rw [← Nat.pow_add, show L - 1 + L = 2 * L - 1 by omega] at h2
      omega

theorem charged_spinful (T n : ℕ) (p : ℕ × ℕ) (s : ℕ) :
    Charged 2 2 T n 1 ![p.1, p.2] s ↔ count (T * n) (s / 2 ^ (T * n)) = p.1 ∧ count (T * n) (s % 2 ^ (T * n)) = p.2 := by
  unfold Charged
  rw [Fin.forall_fin_two]
  have e1 : ∑ i ∈ Finset.range (T * n), occ 2 (2 * (T * n)) s (0 * (T * n) + i) = count (T * n) (s / 2 ^ (T * n)) := by
    rw [← dsum_two, dsum_occ]
    refine Finset.sum_congr rfl fun i hi => ?_
    rw [Finset.mem_range] at hi
    unfold Spec.occ Spec.digit
    rw [Nat.div_div_eq_div_mul, ← Nat.pow_add, show T * n + (T * n - 1 - i) = 2 * (T * n) - 1 - (0 * (T * n) + i) by omega]
  have e2 : ∑ i ∈ Finset.range (T * n), occ 2 (2 * (T * n)) s (1 * (T * n) + i) = count (T * n) (s % 2 ^ (T * n)) := by
    rw [← dsum_two, dsum_occ]
    refine Finset.sum_congr rfl fun i hi => ?_
    rw [Finset.mem_range] at hi
    unfold Spec.occ Spec.digit
    rw [show 2 * (T * n) - 1 - (1 * (T * n) + i) = T * n - 1 - i by omega]
    have e : 2 ^ (T * n) = 2 ^ (T * n - 1 - i) * 2 ^ (i + 1) := by rw [← Nat.pow_add]; congr 1; omega
    rw [e, Nat.mod_mul_right_div_self, Nat.mod_mod_of_dvd _ (dvd_pow_self 2 (by omega))]
  simp only [Fin.val_zero, Fin.val_one, one_mul (M := ℕ), Matrix.cons_val_zero, Matrix.cons_val_one] at e1 e2 ⊢
  rw [e1, e2]

theorem visited_length (next : ℕ → ℕ) (MAX s : ℕ) : (visited next MAX s).length = MAX := by
  induction MAX generalizing s with
  | zero => rfl
  | succ MAX ih => simp [visited, ih]

/-! ### the properties -/

/-- Spins 1/2, hard-core bosons and spinless fermions on `T * n` sites with a unit cell of `T` sites: the memory reserved for a block
with momentum and the particle numbers `ks` is sufficient.  Missing: several particle numbers with fewer than `8n³` states. -/
theorem C113_two_level_partial (T n wide : ℕ) (hT : 0 < T) (hn : 0 < n) (hw : T * n ≤ wide) (ks : List ℕ) (hne : ks ≠ []) (hle : ∀ k ∈ ks, k ≤ T * n)
    (hbig : (ks.filter fun k => (T * n).choose k < 8 * n ^ 3).length ≤ 1) (c : Spec.Chain) (hc : c = .twoLevel (T * n) ∨ c = .spinless (T * n)) :
    ∃ t, basisType (T * n) 2 (some ks) = some t ∧
      Enough c T n (ks.map (sectorHcp (widthOf t wide) (T * n))) (countStates 2 (T * n) (some ks)) := by
  have h0 := Nat.mul_pos hT hn
  obtain ⟨t, ht⟩ : ∃ t, basisType (T * n) 2 (some ks) = some t := by
    cases ks with
    | nil => exact absurd rfl hne
    | cons k ks => exact ⟨_, rfl⟩
  refine ⟨t, ht, ?_⟩
  have e : ks.map (sectorHcp (widthOf t wide) (T * n)) = ks.map (sectorB 2 (T * n)) :=
    List.map_congr_left fun k hk => by rw [hcp_sector_eq (T * n) ks hle wide hw t ht k hk, sector_eq_B]
  rw [e, countStates_sum 2 _ (by decide) h0]
  have hf : ChainFacts c 2 1 T n := by
    rcases hc with rfl | rfl
    · exact facts_twoLevel T n hT hn
    · exact facts_spinless T n hT hn
  refine enough_of_facts hn hf 1 (fun k _ => k) _ _ ks hne (fun k _ => sectorFacts_B 2 T n k) ?_
  refine le_trans (le_of_eq ?_) hbig
  congr 1
  refine List.filter_congr fun k _ => ?_
  rw [← Proof.Gosper.sector_length, sector_eq_B]

/-- One particle number: no condition on the number of states. -/
theorem C113_two_level (T n wide : ℕ) (hT : 0 < T) (hn : 0 < n) (hw : T * n ≤ wide) (k : ℕ) (hk : k ≤ T * n)
    (c : Spec.Chain) (hc : c = .twoLevel (T * n) ∨ c = .spinless (T * n)) :
    ∃ t, basisType (T * n) 2 (some [k]) = some t ∧
      Enough c T n [sectorHcp (widthOf t wide) (T * n) k] (countStates 2 (T * n) (some [k])) :=
  C113_two_level_partial T n wide hT hn hw [k] (by simp) (by simpa using hk) (List.length_filter_le _ _) c hc

/-- Bosons and higher spins with `3 ≤ sps ≤ 256` levels.  Missing: several numbers of quanta with fewer than `8n³` states. -/
theorem C113_multi_level_partial (T n wide sps : ℕ) (hT : 0 < T) (hn : 0 < n) (hb : 2 < sps) (hb' : sps ≤ 256) (hw : sps ^ (T * n + 1) ≤ 2 ^ wide)
    (ks : List ℕ) (hne : ks ≠ []) (hle : ∀ k ∈ ks, k ≤ T * n * (sps - 1))
    (hbig : (ks.filter fun k => (hDim k (T * n) (sps - 1)).toNat < 8 * n ^ 3).length ≤ 1) :
    ∃ t, basisType (T * n) sps (some ks) = some t ∧
      Enough (.levels sps (T * n)) T n (ks.map (sectorBoson (widthOf t wide) sps (T * n))) (countStates sps (T * n) (some ks)) := by
  have h0 := Nat.mul_pos hT hn
  obtain ⟨t, ht⟩ : ∃ t, basisType (T * n) sps (some ks) = some t := by
    cases ks with
    | nil => exact absurd rfl hne
    | cons k ks => exact ⟨_, rfl⟩
  refine ⟨t, ht, ?_⟩
  have e : ks.map (sectorBoson (widthOf t wide) sps (T * n)) = ks.map (sectorB sps (T * n)) :=
    List.map_congr_left fun k hk => boson_sectors _ wide sps h0 hb hb' hw ks hle t ht k hk
  rw [e, countStates_sum sps _ (by omega) h0]
  refine enough_of_facts hn (facts_levels sps T n (by omega) hT hn) 1 (fun k _ => k) _ _ ks hne (fun k _ => sectorFacts_B sps T n k) ?_
  refine le_trans (le_of_eq ?_) hbig
  congr 1
  refine List.filter_congr fun k _ => ?_
  rw [hDim_length sps _ k (by omega) h0]

/-- One number of quanta. -/
theorem C113_multi_level (T n wide sps : ℕ) (hT : 0 < T) (hn : 0 < n) (hb : 2 < sps) (hb' : sps ≤ 256) (hw : sps ^ (T * n + 1) ≤ 2 ^ wide)
    (k : ℕ) (hk : k ≤ T * n * (sps - 1)) :
    ∃ t, basisType (T * n) sps (some [k]) = some t ∧
      Enough (.levels sps (T * n)) T n [sectorBoson (widthOf t wide) sps (T * n) k] (countStates sps (T * n) (some [k])) :=
  C113_multi_level_partial T n wide sps hT hn hb hb' hw [k] (by simp) (by simpa using hk) (List.length_filter_le _ _)

/-- Fermions with spin, with or without double occupancy.  Missing: several pairs of particle numbers with fewer than `8n³` states. -/
theorem C113_spinful_partial (T n wide : ℕ) (hT : 0 < T) (hn : 0 < n) (hw : 2 * (T * n) ≤ wide) (dbl : Bool) (ps : List (ℕ × ℕ)) (hne : ps ≠ [])
    (hle : ∀ p ∈ ps, p.1 ≤ T * n ∧ p.2 ≤ T * n)
    (hbig : (ps.filter fun p => (T * n).choose p.1 * (T * n).choose p.2 < 8 * n ^ 3).length ≤ 1) :
    ∃ t, basisTypeSpf (T * n) (some ps) = some t ∧
      Enough (.spinful (T * n)) T n (ps.map (sectorSpf (widthOf t wide) (T * n) dbl)) (countSpf (T * n) (some ps)) := by
  have h0 := Nat.mul_pos hT hn
  obtain ⟨t, ht⟩ : ∃ t, basisTypeSpf (T * n) (some ps) = some t := by
    cases ps with
    | nil => exact absurd rfl hne
    | cons k ks => exact ⟨_, rfl⟩
  refine ⟨t, ht, ?_⟩
  have hspec := spf_sectors (T * n) wide h0 hw dbl ps hle t ht
  have eN : countSpf (T * n) (some ps) = (ps.map fun p => (T * n).choose p.1 * (T * n).choose p.2).sum :=
    sum_toNat_ge _ _ ps fun p _ => by rw [hDim_two _ _ h0, hDim_two _ _ h0]; push_cast; rfl
  rw [eN]
  refine enough_of_facts hn (facts_spinful T n hT hn) 1 (fun p => ![p.1, p.2]) _ _ ps hne (fun p hp => ⟨(hspec p hp).1, fun s hs => ?_, ?_⟩) hbig
  · obtain ⟨h1, h2, h3, _⟩ := ((hspec p hp).2.2 s).1 hs
    exact ⟨h1, (charged_spinful T n p s).2 ⟨h2, h3⟩⟩
  · have hw' : 2 * (T * n) ≤ 2 * (T * n) ∨ p.1 = 0 ∧ T * n ≤ 2 * (T * n) := Or.inl le_rfl
    have hall := spf_sector_mem (2 * (T * n)) (T * n) true p hw' (hle p hp).2
    refine ⟨sectorSpf (2 * (T * n)) (T * n) true p, ?_, hall.1.imp fun h => Nat.ne_of_lt h, fun s => ?_⟩
    · unfold sectorSpf
      rw [List.filter_eq_self.2 fun s _ => by simp [spfAllowed], visited_length]
    · rw [hall.2.2]
      constructor
      · rintro ⟨h1, h2, h3, _⟩
        exact ⟨h1, (charged_spinful T n p s).2 ⟨h2, h3⟩⟩
      · rintro ⟨h1, h2⟩
        obtain ⟨h3, h4⟩ := (charged_spinful T n p s).1 h2
        exact ⟨h1, h3, h4, fun h => by cases h⟩

/-- One pair of particle numbers. -/
theorem C113_spinful (T n wide : ℕ) (hT : 0 < T) (hn : 0 < n) (hw : 2 * (T * n) ≤ wide) (dbl : Bool) (p : ℕ × ℕ) (hp : p.1 ≤ T * n ∧ p.2 ≤ T * n) :
    ∃ t, basisTypeSpf (T * n) (some [p]) = some t ∧
      Enough (.spinful (T * n)) T n [sectorSpf (widthOf t wide) (T * n) dbl p] (countSpf (T * n) (some [p])) :=
  C113_spinful_partial T n wide hT hn hw dbl [p] (by simp) (by simpa using hp) (List.length_filter_le _ _)

/-- Without conservation of particles, for all kinds of chains, if the type of the basis holds all states (`hw`; for fermions with spin see `C67_fails_width`): the states `0, …, size - 1`, from which `allowed` selects (pairs of
fermions can be excluded). -/
theorem C113_all_states (c : Spec.Chain) (T n w : ℕ) (hT : 0 < T) (hn : 0 < n) (hfit : Fits none c) (hL : c.length = T * n) (hw : c.size ≤ 2 ^ w)
    (allowed : ℕ → Bool) : Enough c T n [(visited (inc1 w) c.size 0).filter allowed] c.size := by
  have : NeZero n := ⟨hn.ne'⟩
  rw [visited_full w _ hw]
  have key : ∀ b m : ℕ, ChainFacts c b m T n → Enough c T n [(List.range c.size).filter allowed] c.size := by
    intro b m hc
    have hq : ∀ s, Charged b m T n 0 (fun _ => 0) s := fun s u => by simp
    refine enough_one hc (wgt := 0) (ch := fun _ => 0) ⟨List.Pairwise.filter _ List.pairwise_lt_range, fun s hs => ⟨?_, hq s⟩,
      List.range c.size, List.length_range, List.nodup_range, fun s => ?_⟩
    · rw [← hc.size]; simpa using (List.mem_filter.1 hs).1
    · rw [List.mem_range, hc.size]; simp [hq]
  cases c with
  | twoLevel L => cases hL; exact key _ _ (facts_twoLevel T n hT hn)
  | levels b L => cases hL; exact key _ _ (facts_levels b T n hfit.2 hT hn)
  | spinless L => cases hL; exact key _ _ (facts_spinless T n hT hn)
  | spinful L => cases hL; exact key _ _ (facts_spinful T n hT hn)

/-- The number of states that the code finds is the size of the Hilbert space. -/
theorem C113_count (b L : ℕ) : countStates 2 L none = (Spec.Chain.twoLevel L).size ∧ countStates 2 L none = (Spec.Chain.spinless L).size ∧
    countStates b L none = (Spec.Chain.levels b L).size ∧ countSpf L none = (Spec.Chain.spinful L).size := ⟨rfl, rfl, rfl, rfl⟩

theorem U_fst (y : Generator) (s : ℕ) (j : ℕ) : (y.U^[j] (s, 1)).1 = y.img^[j] s := by
  induction j with
  | zero => rfl
  | succ j ih => rw [Function.iterate_succ_apply', Function.iterate_succ_apply', ← ih]; rfl

theorem toList_keeps {α : Type} {c : Spec.Chain} {T : ℕ} {keep : ℕ → Option α}
    (h : ∀ s < c.size, (keep s).isSome → LargestTranslate c T s) : KeepsLargest c T fun s => (keep s).toList := by
  intro s hs
  refine ⟨by cases keep s <;> simp, fun hne => h s hs ?_⟩
  cases e : keep s with
  | none => exact absurd (by simp [e]) hne
  | some a => rfl

theorem largest_of_representative {c : Spec.Chain} {T n k s : ℕ} {z : Generator}
    (h : ∀ y : Generator, c.IsSymmetry (c.shift T) y → y.per = n → y.q = k → IsRepresentative [y, z] s) : LargestTranslate c T s := by
  intro y hy j
  refine (h ⟨y.img, y.sgn, n, k⟩ ⟨hy.img, hy.sgn⟩ rfl rfl).1 _ ?_
  induction j with
  | zero => exact Relation.ReflTransGen.refl
  | succ j ih =>
    rw [Function.iterate_succ_apply']
    exact ih.tail ⟨⟨y.img, y.sgn, n, k⟩, by simp, rfl⟩

/-- Blocks of momentum keep the largest of the translates. -/
theorem C113_momentum (w : Option ℕ) (c : Spec.Chain) (h : Fits w c) (T n k : ℕ) (hT : 0 < T) (hn : 0 < n) (hL : c.length = T * n) :
    KeepsLargest c T fun s => (keepN (checkT (shiftOf w T c) k c.length T) s).toList := by
  refine toList_keeps fun s hs hk y hy j => ?_
  have hpos : 0 < checkT (shiftOf w T c) k c.length T s := by
    unfold keepN at hk
    by_contra hc
    rw [if_neg hc] at hk
    cases hk
  have := ((C38_compatible w c h T n k hT hn hL ⟨y.img, y.sgn, n, k⟩ ⟨hy.img, hy.sgn⟩ rfl rfl s hs).1 hpos).1 j
  rwa [U_fst] at this

/-- So do blocks of momentum and inversion. -/
theorem C113_momentum_inversion (w : Option ℕ) (c : Spec.Chain) (h : Fits w c) (hF : HasFlip c) (T n k : ℕ) (hT : 0 < T) (hn : 0 < n)
    (hL : c.length = T * n) (z : Int) (hz : z = 1 ∨ z = -1) :
    KeepsLargest c T fun s => (keepT_Z (shiftOf w T c) (flipAllOf w c) z k c.length T s).toList := by
  obtain ⟨q, hq⟩ : ∃ q, HasParity (gen (flipAllOf w c) 2 q) z := by
    rcases hz with rfl | rfl
    · exact ⟨0, rfl, Or.inl ⟨rfl, rfl⟩⟩
    · exact ⟨1, rfl, Or.inr ⟨rfl, rfl⟩⟩
  exact toList_keeps fun s hs hk => largest_of_representative (n := n) (k := k) (z := gen (flipAllOf w c) 2 q) fun y hy h1 h2 =>
    (C63_momentum_inversion w c h hF T n k hT hn hL y _ hy h1 h2 (flip_isSymmetry h hF 2 q) z hq s hs).1.1 hk

/-- So do blocks of momentum and inversion of a sublattice. -/
theorem C113_momentum_sublattice (w : Option ℕ) (c : Spec.Chain) (h : Fits w c) (hf : c.fermions = false) (T n k : ℕ) (hT : 0 < T)
    (heven : T % 2 = 0) (hn : 0 < n) (hL : c.length = T * n) (z : Int) (hz : z = 1 ∨ z = -1) :
    (KeepsLargest c T fun s => (keepT_ZA (shiftOf w T c) (flipAOf c) z k c.length T s).toList) ∧
    KeepsLargest c T fun s => (keepT_ZA (shiftOf w T c) (flipBOf c) z k c.length T s).toList := by
  have hp : ∀ f : BitOp, ∃ q, HasParity (gen f 2 q) z := by
    intro f
    rcases hz with rfl | rfl
    · exact ⟨0, rfl, Or.inl ⟨rfl, rfl⟩⟩
    · exact ⟨1, rfl, Or.inr ⟨rfl, rfl⟩⟩
  obtain ⟨qA, hA⟩ := hp (flipAOf c)
  obtain ⟨qB, hB⟩ := hp (flipBOf c)
  exact ⟨toList_keeps fun s hs hk => largest_of_representative (n := n) (k := k) (z := gen (flipAOf c) 2 qA) fun y hy h1 h2 =>
      (C63_momentum_sublattice_A w c h hf T n k hT heven hn hL y _ hy h1 h2 (subA_isSymmetry h hf 2 qA) z hA s hs).1.1 hk,
    toList_keeps fun s hs hk => largest_of_representative (n := n) (k := k) (z := gen (flipBOf c) 2 qB) fun y hy h1 h2 =>
      (C63_momentum_sublattice_B w c h hf T n k hT heven hn hL y _ hy h1 h2 (subB_isSymmetry h hf 2 qB) z hB s hs).1.1 hk⟩

theorem img_iter {c : Spec.Chain} {Tr : BitOp} {n : ℕ} (hc : Cyclic (· < c.size) Tr n) {y : Generator} (hy : ∀ s < c.size, y.img s = (Tr s).1) {s : ℕ}
    (hs : s < c.size) (k : ℕ) : y.img^[k] s = (tr Tr s k).1 := by
  induction k with
  | zero => rfl
  | succ k ih =>
    rw [Function.iterate_succ_apply', ih, hy _ (hc.closed_iter hs k)]
    show _ = ((step Tr)^[k + 1] (s, 1)).1
    rw [Function.iterate_succ_apply']
    rfl

theorem translation_is {w : Option ℕ} {c : Spec.Chain} (h : Fits w c) {T n : ℕ} (hT : 0 < T) (hn : 0 < n) (hL : c.length = T * n) {y : Generator}
    (hy : c.IsSymmetry (c.shift T) y) : ∀ s < c.size, y.img s = (shiftOf w T c s).1 :=
  (Proof.Semi.matrixOf_isSymmetry (shift_site c T n hT hn hL) hy
    (shift_isSymmetry h T hT (by rw [hL]; exact Nat.le_mul_of_pos_right _ hn))).2

theorem own_dihedral {w : Option ℕ} {c : Spec.Chain} (h : Fits w c) {T n k : ℕ} (hT : 0 < T) (hn : 0 < n) (hL : c.length = T * n) {p : Int}
    (hp : p = 1 ∨ p = -1) {R : BitOp} (hd : Proof.Chain.Dihedral (· < c.size) (shiftOf w T c) R n) {vis : List ℕ} (hv : ∀ s ∈ vis, s < c.size ∧ (R s).1 ∈ vis)
    {keep : ℕ → List (Int × ℕ)} (hkeep : ∀ s < c.size, keep s = keepT_P (checkT_Z (shiftOf w T c) R k (T * n) T) p k (T * n) T s) :
    OwnOrbits c T vis keep := by
  refine ⟨fun s i => if i = 0 then s else (R s).1, fun s hs i _ => ?_, fun s hs t ht i hi j hj y hy m e => ?_⟩
  · by_cases h0 : i = 0
    · simpa [h0] using hs
    · simpa [h0] using (hv s hs).2
  have hs' := (hv s hs).1
  have ht' := (hv t ht).1
  obtain ⟨s1, s2, s3⟩ := Proof.Semi.two_entries (k := k) (T := T) hd hT hp hs'
  obtain ⟨t1, t2, t3⟩ := Proof.Semi.two_entries (k := k) (T := T) hd hT hp ht'
  rw [hkeep s hs'] at hi
  rw [hkeep t ht'] at hj
  have sTop := s1 fun h => by rw [h] at hi; simp at hi
  have tTop := t1 fun h => by rw [h] at hj; simp at hj
  have hy' := translation_is h hT hn hL hy
  have hRR : (R (R t).1).1 = t := congrArg Prod.fst (hd.square t ht')
  have back : ∀ x, x < c.size → ∀ x', (tr (shiftOf w T c) x m).1 = x' → (tr (shiftOf w T c) x' (n * m - m)).1 = x := by
    rintro x hx x' rfl
    have := congrArg Prod.fst (Proof.Chain.iter_back hd.cyc (x, 1) hx m)
    rwa [Proof.Chain.iter_fst] at this
  have hR := hd.closed s hs'
  have hswap : Proof.Chain.InOrbit (shiftOf w T c) R s (R t).1 → s = t := by
    intro ho
    have := hd.inOrbit_symm hs' ho
    refine (hd.top_unique ht' tTop sTop ?_).symm
    rcases this with h1 | h1
    · exact Or.inr h1
    · rw [hRR] at h1; exact Or.inl h1
  by_cases hi0 : i = 0 <;> by_cases hj0 : j = 0
  · simp only [hi0, hj0, if_true] at e ⊢
    rw [img_iter hd.cyc hy' hs'] at e
    exact ⟨hd.top_unique hs' sTop tTop (Or.inl ⟨m, e⟩), trivial⟩
  · simp only [hi0, hj0, if_true, if_false] at e ⊢
    rw [img_iter hd.cyc hy' hs'] at e
    have hst := hswap (Or.inl ⟨m, e⟩)
    subst hst
    exact absurd (back s hs' _ e) (s3 (by omega) _)
  · simp only [hi0, hj0, if_true, if_false] at e ⊢
    rw [img_iter hd.cyc hy' hR] at e
    have hst := hd.top_unique hs' sTop tTop (Or.inr ⟨m, e⟩)
    subst hst
    exact absurd e (s3 (by omega) _)
  · simp only [hi0, hj0, if_false] at e
    rw [img_iter hd.cyc hy' hR] at e
    exact ⟨hswap (Or.inr ⟨m, e⟩), by omega⟩

/-- Blocks of momentum and reflection, for states among which the reflection maps: two entries for a state stand for the state and the
reflected one. -/
theorem C113_momentum_reflection (w : Option ℕ) (c : Spec.Chain) (h : Fits w c) (T n k : ℕ) (hT : 0 < T) (hn : 0 < n) (hL : c.length = T * n)
    (p : Int) (hp : p = 1 ∨ p = -1) (yP : Generator) (hyP : c.IsSymmetry c.parity yP) (vis : List ℕ) (hv : ∀ s ∈ vis, s < c.size ∧ yP.img s ∈ vis) :
    OwnOrbits c T vis (keepT_P (checkT_Z (shiftOf w T c) (flipLROf w c) k c.length T) p k c.length T) := by
  have i2 := (Proof.Semi.matrixOf_isSymmetry (parity_site c) hyP (parity_isSymmetry h)).2
  refine own_dihedral h hT hn hL hp (Proof.Semi.dihedral_chain h T n hT hn hL) (fun s hs => ⟨(hv s hs).1, ?_⟩) fun s _ => by rw [hL]
  rw [← i2 s (hv s hs).1]
  exact (hv s hs).2

/-- Blocks of momentum and the product of reflection and inversion. -/
theorem C113_momentum_product (w : Option ℕ) (c : Spec.Chain) (h : Fits w c) (hF : HasFlip c) (T n k : ℕ) (hT : 0 < T) (hn : 0 < n)
    (hL : c.length = T * n) (p : Int) (hp : p = 1 ∨ p = -1) (yP yZ : Generator) (hyP : c.IsSymmetry c.parity yP) (hyZ : c.IsSymmetry c.flip yZ)
    (vis : List ℕ) (hv : ∀ s ∈ vis, s < c.size ∧ yZ.img (yP.img s) ∈ vis) :
    OwnOrbits c T vis (keepT_P (checkT_PZ (shiftOf w T c) (flipLROf w c) (flipAllOf w c) k c.length T) p k c.length T) := by
  have i2 := (Proof.Semi.matrixOf_isSymmetry (parity_site c) hyP (parity_isSymmetry h)).2
  have i3 := (Proof.Semi.matrixOf_isSymmetry (flip_site c hF) hyZ (flip_isSymmetry h hF)).2
  have ht := triad_chain h hF T n hT hn hL
  refine own_dihedral h hT hn hL hp ht.prodDih (fun s hs => ⟨(hv s hs).1, ?_⟩) fun s hs => by
    rw [Proof.Semi.keep_product (ht.commP s hs), hL]
  have := (hv s hs).2
  rw [i2 s (hv s hs).1, i3 _ (ht.dih.closed s (hv s hs).1)] at this
  exact this

/-- Blocks of momentum, reflection and inversion. -/
theorem C113_momentum_reflection_inversion (w : Option ℕ) (c : Spec.Chain) (h : Fits w c) (hF : HasFlip c) (T n k : ℕ) (hT : 0 < T) (hn : 0 < n)
    (hL : c.length = T * n) (p z : Int) (hp : p = 1 ∨ p = -1) (hz : z = 1 ∨ z = -1) (yP yZ : Generator) (hyP : c.IsSymmetry c.parity yP)
    (hyZ : c.IsSymmetry c.flip yZ) (vis : List ℕ) (hv : ∀ s ∈ vis, s < c.size ∧ yP.img s ∈ vis ∧ yZ.img s ∈ vis) :
    OwnOrbits c T vis (keepT_P_Z (shiftOf w T c) (flipLROf w c) (flipAllOf w c) p z k c.length T) := by
  classical
  have i2 := (Proof.Semi.matrixOf_isSymmetry (parity_site c) hyP (parity_isSymmetry h)).2
  have i3 := (Proof.Semi.matrixOf_isSymmetry (flip_site c hF) hyZ (flip_isSymmetry h hF)).2
  have ht := triad_chain h hF T n hT hn hL
  have key := fun s (hs : s < c.size) => Proof.Semi.three_entries (k := k) (T := T) ht hT hp hz hs
  rw [hL]
  have inP : ∀ s ∈ vis, (flipLROf w c s).1 ∈ vis := fun s hs => by rw [← i2 s (hv s hs).1]; exact (hv s hs).2.1
  have inZ : ∀ s ∈ vis, (flipAllOf w c s).1 ∈ vis := fun s hs => by rw [← i3 s (hv s hs).1]; exact (hv s hs).2.2
  have hR : ∃ R : ℕ → BitOp, ∀ s < c.size, (R s = flipLROf w c ∨ R s = andThen (flipLROf w c) (flipAllOf w c)) ∧
      (1 < (keepT_P_Z (shiftOf w T c) (flipLROf w c) (flipAllOf w c) p z k (T * n) T s).length → ∀ m, (tr (shiftOf w T c) (R s s).1 m).1 ≠ s) := by
    refine ⟨fun s => if hs : s < c.size then (key s hs).2.2.choose else flipLROf w c, fun s hs => ?_⟩
    simp only [dif_pos hs]
    exact (key s hs).2.2.choose_spec
  obtain ⟨R, hR⟩ := hR
  have closedR : ∀ s < c.size, (R s s).1 < c.size := fun s hs => by
    rcases (hR s hs).1 with e | e <;> rw [e]
    · exact ht.dih.closed s hs
    · exact ht.prodDih.closed s hs
  refine ⟨fun s i => if i = 0 then s else (R s s).1, fun s hs i _ => ?_, fun s hs t ht' i hi j hj y hy m e => ?_⟩
  · by_cases h0 : i = 0
    · simpa [h0] using hs
    · simp only [h0, if_false]
      rcases (hR s (hv s hs).1).1 with e | e <;> rw [e]
      · exact inP s hs
      · exact inZ _ (inP s hs)
  have hs' := (hv s hs).1
  have htl := (hv t ht').1
  obtain ⟨s1, s2, _⟩ := key s hs'
  obtain ⟨t1, t2, _⟩ := key t htl
  have sTop := s1 fun h => by rw [h] at hi; simp at hi
  have tTop := t1 fun h => by rw [h] at hj; simp at hj
  have hy' := translation_is h hT hn hL hy
  have refl : ∀ u < c.size, Proof.Semi.Orb3 (shiftOf w T c) (flipLROf w c) (flipAllOf w c) u u := fun u _ => ⟨0, Or.inl rfl⟩
  have orbR : ∀ u < c.size, ∀ v < c.size, ∀ x, Proof.Semi.Orb3 (shiftOf w T c) (flipLROf w c) (flipAllOf w c) u x →
      Proof.Semi.Orb3 (shiftOf w T c) (flipLROf w c) (flipAllOf w c) u (R v x).1 := by
    intro u hu v hv x hx
    rcases (hR v hv).1 with e | e <;> rw [e]
    · exact ht.orb_refl hu hx
    · exact ht.orb_inv hu (ht.orb_refl hu hx)
  have hinv : (R t (R t t).1).1 = t := by
    rcases (hR t htl).1 with e | e <;> rw [e]
    · exact ht.refl_refl htl
    · exact congrArg Prod.fst (ht.prodDih.square t htl)
  have hplace : (if i = 0 then s else (R s s).1) < c.size := by split_ifs; exacts [hs', closedR s hs']
  rw [img_iter ht.dih.cyc hy' hplace] at e
  have o1 : Proof.Semi.Orb3 (shiftOf w T c) (flipLROf w c) (flipAllOf w c) s (if i = 0 then s else (R s s).1) := by
    split_ifs
    · exact refl s hs'
    · exact orbR s hs' s hs' s (refl s hs')
  have o2 := Proof.Semi.triad_orb_tr o1 m
  rw [e] at o2
  have o3 : Proof.Semi.Orb3 (shiftOf w T c) (flipLROf w c) (flipAllOf w c) s t := by
    by_cases hj0 : j = 0
    · simpa [hj0] using o2
    · simp only [hj0, if_false] at o2
      have := orbR s hs' t htl _ o2
      rwa [hinv] at this
  obtain ⟨a, ha⟩ := o3
  have hst : s = t := (ht.top_unique hs' tTop sTop a ha).symm
  subst hst
  refine ⟨rfl, ?_⟩
  by_cases hi0 : i = 0 <;> by_cases hj0 : j = 0
  · omega
  · simp only [hi0, hj0, if_true, if_false] at e
    have hb := congrArg Prod.fst (Proof.Chain.iter_back ht.dih.cyc (s, 1) hs' m)
    rw [Proof.Chain.iter_fst] at hb
    have hb' : (tr (shiftOf w T c) (tr (shiftOf w T c) s m).1 (n * m - m)).1 = s := hb
    rw [e] at hb'
    exact absurd hb' ((hR s hs').2 (by omega) _)
  · simp only [hi0, hj0, if_true, if_false] at e
    exact absurd e ((hR s hs').2 (by omega) _)
  · have l2 : (keepT_P_Z (shiftOf w T c) (flipLROf w c) (flipAllOf w c) p z k (T * n) T s).length ≤ 2 := s2
    omega

/-- A list of particle numbers may contain a number repeatedly, and then the memory does not suffice: for
`spin_basis_1d(4,Nup=[0,0,0,0,0,0],kblock=0)` five entries are reserved and six are written, the last one beyond the end of the arrays. -/
theorem C113_fails_repeated : basisType 4 2 (some [0, 0, 0, 0, 0, 0]) = some (some 32) ∧
    reserved (countStates 2 4 (some [0, 0, 0, 0, 0, 0])) 4 = 5 ∧
    fillBlocks (reserved (countStates 2 4 (some [0, 0, 0, 0, 0, 0])) 4)
      (fun s => (keepN (checkT (shiftOf (some 32) 1 (.twoLevel 4)) 0 4 1) s).toList) ([0, 0, 0, 0, 0, 0].map (sectorHcp 32 4)) = none ∧
    ¬Enough (.twoLevel 4) 1 4 ([0, 0, 0, 0, 0, 0].map (sectorHcp 32 4)) (countStates 2 4 (some [0, 0, 0, 0, 0, 0])) := by
  have e1 : countStates 2 4 (some [0, 0, 0, 0, 0, 0]) = 6 := by decide +kernel
  have e2 : reserved 6 4 = 5 := by
    unfold reserved
    rw [Nat.floor_eq_iff (by norm_num)]
    norm_num
  have e3 : fillBlocks 5 (fun s => (keepN (checkT (shiftOf (some 32) 1 (.twoLevel 4)) 0 4 1) s).toList)
      ([0, 0, 0, 0, 0, 0].map (sectorHcp 32 4)) = none := by decide +kernel
  rw [e1, e2]
  refine ⟨by decide +kernel, rfl, e3, fun h => ?_⟩
  have := h _ _ (Or.inl (C113_momentum (some 32) (.twoLevel 4) ⟨by decide, fun v hv => by cases hv; decide⟩ 1 4 0 (by decide) (by decide) rfl))
  rw [e2] at this
  have e4 := e3
  change fillBlocks 5 (fun s => (keepN (checkT (shiftOf (some 32) 1 (.twoLevel 4)) 0 (Spec.Chain.twoLevel 4).length 1) s).toList) _ = none at e4
  rw [e4] at this
  cases this

/-! ### the hypotheses are met -/

/-- ten sites, five particles: 252 states and `int(1.1*252/10+10) = 37` entries are reserved -/
example : ∃ t, basisType 10 2 (some [5]) = some t ∧
    Enough (.twoLevel 10) 1 10 [sectorHcp (widthOf t 64) 10 5] (countStates 2 10 (some [5])) :=
  C113_two_level 1 10 64 (by decide) (by decide) (by decide) 5 (by decide) _ (Or.inl rfl)

/-- three sectors of a chain of 24 sites with a unit cell of four, two of them large -/
example : (([12, 11, 2] : List ℕ).filter fun k => (4 * 6).choose k < 8 * 6 ^ 3).length ≤ 1 := by decide +kernel

example : ∃ t, basisTypeSpf 6 (some [(3, 2)]) = some t ∧
    Enough (.spinful 6) 2 3 [sectorSpf (widthOf t 64) 6 false (3, 2)] (countSpf 6 (some [(3, 2)])) :=
  C113_spinful 2 3 64 (by decide) (by decide) (by decide) false (3, 2) (by decide)

/-- blocks of momentum and reflection with `k` particles: the sector of the theorem is closed under the reflection -/
example (T n k : ℕ) (hT : 0 < T) (hn : 0 < n) (q : ℕ) (yP : Generator) (hyP : (Spec.Chain.twoLevel (T * n)).IsSymmetry (Spec.Chain.twoLevel (T * n)).parity yP) :
    OwnOrbits (.twoLevel (T * n)) T (sector (T * n) q)
      (keepT_P (checkT_Z (shiftOf none T (.twoLevel (T * n))) (flipLROf none (.twoLevel (T * n))) k (T * n) T) 1 k (T * n) T) :=
  have h := pcon_sector (c := .twoLevel (T * n)) (Or.inl rfl) q (ys := [yP]) fun y hy => ⟨_, by rw [List.mem_singleton.1 hy]; exact hyP, Or.inr (Or.inl rfl)⟩
  C113_momentum_reflection none (.twoLevel (T * n)) ⟨Nat.mul_pos hT hn, fun v hv => by cases hv⟩ T n k hT hn rfl 1 (Or.inl rfl) yP hyP _
    fun s hs => ⟨h.below s hs, h.closed yP (by simp) s hs⟩

end Props
