import Verif.Model.Word
/-!
Bit permutations by Benes networks, `basis_general/_basis_general_core/source/benes_perm.h`, and the
action of a user map on two-level configurations built on them, `hcb_basis_core.h:39-98`.

Arrays of `bits = 2^ld_bits` indices are functions; `none` is `no_index`.  `lo_bit << i` is `2^i` (all
indices are below the width `bits` of the type).  Every type the library selects (`general_basis_utils.pyx:389-402`)
has `bits = 2^ld_bits`; the `bit_info` of the unused 8192-bit type does not (`bits_info.h:40-44`).
-/
namespace Model
open Word

/-- assignment `f[i] = v` -/
def upd {α : Type} (f : Nat → α) (i : Nat) (v : α) : Nat → α := fun j => if j = i then v else f j

/-- `bit_permute_step`, `benes_perm.h:92-106`. -/
def bitPermuteStep (w x m shift : Nat) : Nat :=
  let t := ((x >>> shift) ^^^ x) &&& m
  (x ^^^ t) ^^^ shl w t shift

/-- `bfly`, `benes_perm.h:111-128`: stages `k-1, …, 0`. -/
def bfly (w : Nat) (cfg : Nat → Nat) : Nat → Nat → Nat
  | 0, x => x
  | k + 1, x => bfly w cfg k (bitPermuteStep w x (cfg k) (1 <<< k))

/-- `ibfly`, `benes_perm.h:130-147`: stages `0, …, k-1`. -/
def ibfly (w : Nat) (cfg : Nat → Nat) : Nat → Nat → Nat
  | 0, x => x
  | k + 1, x => bitPermuteStep w (ibfly w cfg k x) (cfg k) (1 <<< k)

/-- The variables of `gen_benes_ex`, `benes_perm.h:174-182`. -/
structure BenesState where
  src : Nat → Option Nat
  invSrc : Nat → Option Nat
  tgt : Nat → Option Nat
  invTgt : Nat → Option Nat
  srcSet : Nat
  cfgSrc : Nat
  cfgTgt : Nat

/-- `x & ~mask` on ints -/
def clearMask (x mask : Nat) : Nat := x ^^^ (x &&& mask)

/-- `exchange_bit_index(&f[i], &f[j])`, `benes_perm.h:153-162`. -/
def exchange (f : Nat → Option Nat) (i j : Nat) : Nat → Option Nat := upd (upd f i (f j)) j (f i)

/-- `inv[v] = i` unless `v` is `no_index`. -/
def setInv (inv : Nat → Option Nat) (v : Option Nat) (i : Nat) : Nat → Option Nat :=
  match v with
  | none => inv
  | some x => upd inv x (some i)

/-- `benes_perm.h:218-231`: the step on the target side; returns the new `tgt_idx`.  `tgt[tgt_idx]` has
been found to be different from `no_index` (line 214), so that the unguarded assignment of line 227 is
`setInv`. -/
def benesTgt (mask srcIdx t : Nat) (b : BenesState) : BenesState × Nat :=
  if (srcIdx ^^^ t) &&& mask = 0 then (b, t ^^^ mask)
  else
    let idx2 := t ^^^ mask
    let tgt' := exchange b.tgt t idx2
    ({ b with cfgTgt := b.cfgTgt ||| 1 <<< clearMask t mask, tgt := tgt',
              invTgt := setInv (setInv b.invTgt (tgt' idx2) idx2) (tgt' t) t }, t)

/-- `benes_perm.h:239-256`: the step on the source side; returns the new `src_idx`. -/
def benesSrc (mask q t : Nat) (b : BenesState) : BenesState × Nat :=
  if (q ^^^ t) &&& mask = 0 then ({ b with srcSet := b.srcSet ||| 1 <<< q }, q ^^^ mask)
  else
    let idx2 := q ^^^ mask
    let src' := exchange b.src q idx2
    ({ b with cfgSrc := b.cfgSrc ||| 1 <<< clearMask q mask, srcSet := b.srcSet ||| 1 <<< idx2, src := src',
              invSrc := setInv (setInv b.invSrc (src' idx2) idx2) (src' q) q }, q)

/-- One round of the `do … while` loop, `benes_perm.h:211-263`: the new state and the `src_idx` to go on
with (`none`: `break`).  Outer `none`: an array is indexed with `no_index`. -/
def benesRound (mask p : Nat) (b : BenesState) : Option (BenesState × Option Nat) :=
  let b := { b with srcSet := b.srcSet ||| 1 <<< p }
  (b.src p).bind fun v => (b.invTgt v).bind fun t0 =>
    if b.tgt t0 = none then some (b, none)
    else
      let bt := benesTgt mask p t0 b
      match bt.1.tgt bt.2 with
      | none => some (bt.1, none)
      | some u => (bt.1.invSrc u).bind fun q =>
        let bs := benesSrc mask q bt.2 bt.1
        if bs.1.src bs.2 = none then some (bs.1, none)
        else if (1 <<< bs.2) &&& bs.1.srcSet ≠ 0 then some (bs.1, none)
        else some (bs.1, some bs.2)

/-- The `do … while` loop, at most `fuel` rounds (`none`: not stopped, or bad index). -/
def benesWalk (mask : Nat) : (fuel p : Nat) → BenesState → Option BenesState
  | 0, _, _ => none
  | fuel + 1, p, b =>
    match benesRound mask p b with
    | none => none
    | some (b', none) => some b'
    | some (b', some p') => benesWalk mask fuel p' b'

/-- `benes_perm.h:207-211`: start a walk at `src_idx` if it is unhandled and not open. -/
def benesTry (mask bits p : Nat) (b : BenesState) : Option BenesState :=
  if (1 <<< p) &&& b.srcSet = 0 then
    if b.src p ≠ none then benesWalk mask bits p b else some b
  else some b

/-- `benes_perm.h:204-207`: both indices of the pair of `main_idx`, for one value of `main_idx`. -/
def benesMain (stage bits main : Nat) (b : BenesState) : Option BenesState :=
  if main &&& (1 <<< stage) = 0 then
    (benesTry (1 <<< stage) bits (main + (0 <<< stage)) b).bind fun b =>
      benesTry (1 <<< stage) bits (main + (1 <<< stage)) b
  else some b

/-- The loop over `main_idx`, `benes_perm.h:204-269`: values `main, main+1, …` (`cnt` of them). -/
def benesMains (stage bits : Nat) : (cnt main : Nat) → BenesState → Option BenesState
  | 0, _, b => some b
  | cnt + 1, main, b => (benesMain stage bits main b).bind (benesMains stage bits cnt (main + 1))

/-- The loop over the stages `k-1, …, 0` (the order set by `gen_benes`, `benes_perm.h:281-286`),
`benes_perm.h:197-272`; the two functions are `b1.cfg` and `b2.cfg`. -/
def benesStages (bits : Nat) : (k : Nat) → BenesState → (Nat → Nat) × (Nat → Nat) → Option ((Nat → Nat) × (Nat → Nat))
  | 0, _, c => some c
  | k + 1, b, c =>
    (benesMains k bits bits 0 { b with srcSet := 0, cfgSrc := 0, cfgTgt := 0 }).bind fun b' =>
      benesStages bits k b' (upd c.1 k b'.cfgSrc, upd c.2 k b'.cfgTgt)

/-- `invert_perm`, `benes_perm.h:77-90`, loop over `i < cnt`. -/
def invertPerm (src : Nat → Option Nat) : Nat → Nat → Option Nat
  | 0 => fun _ => none
  | cnt + 1 => setInv (invertPerm src cnt) (src cnt) cnt

/-- `src[c_tgt[s]] = s`, `benes_perm.h:185-194`, loop over `s < cnt`. -/
def benesSrcInit (c : Nat → Option Nat) : Nat → Nat → Option Nat
  | 0 => fun _ => none
  | cnt + 1 => setInv (benesSrcInit c cnt) (c cnt) cnt

/-- `tgt[s] = s`, `benes_perm.h:185-194`, loop over `s < cnt`. -/
def benesTgtInit (c : Nat → Option Nat) : Nat → Nat → Option Nat
  | 0 => fun _ => none
  | cnt + 1 => if c cnt ≠ none then upd (benesTgtInit c cnt) cnt (some cnt) else benesTgtInit c cnt

/-- `gen_benes`, `benes_perm.h:164-287`. -/
def genBenes (ld : Nat) (c : Nat → Option Nat) : Option ((Nat → Nat) × (Nat → Nat)) :=
  let bits := 2 ^ ld
  let src := benesSrcInit c bits
  let tgt := benesTgtInit c bits
  benesStages bits ld
    { src := src, invSrc := invertPerm src bits, tgt := tgt, invTgt := invertPerm tgt bits,
      srcSet := 0, cfgSrc := 0, cfgTgt := 0 }
    (fun _ => 0, fun _ => 0)

/-- `benes_bwd`, `benes_perm.h:297-303`. -/
def benesBwd (ld : Nat) (cfg : (Nat → Nat) × (Nat → Nat)) (x : Nat) : Nat :=
  ibfly (2 ^ ld) cfg.1 ld (bfly (2 ^ ld) cfg.2 ld x)

/-- The index array of a map, `hcb_basis_core.h:44-65`: position `bit_j = N-j-1` gets `N+m` or `N-m-1`.
Simplified: written as a function (the loop over `j` writes each position once). -/
def hcbIndex (N : Nat) (map : List Int) : Nat → Option Nat := fun p =>
  if p < N then
    let m := map.getD (N - 1 - p) 0
    some (if m < 0 then ((N : Int) + m).toNat else ((N : Int) - m - 1).toNat)
  else none

/-- The inversion mask of a map, `hcb_basis_core.h:50-60`, loop over `j < cnt`. -/
def hcbInv (w N : Nat) (map : List Int) : Nat → Nat
  | 0 => 0
  | j + 1 => if map.getD j 0 < 0 then hcbInv w N map j ^^^ shl w 1 (N - j - 1) else hcbInv w N map j

/-- `map_state` of the two-level bases, `hcb_basis_core.h:67-83`, in the type with `2^ld` bits. -/
def hcbMapState (ld N : Nat) (map : List Int) (s : Nat) : Option Nat :=
  (genBenes ld (hcbIndex N map)).map fun cfg => benesBwd ld cfg (s ^^^ hcbInv (2 ^ ld) N map N)

end Model
