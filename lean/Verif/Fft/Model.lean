/-
Model of `include/altruct/algorithm/math/fft.h`.

The roots live in a type `R` and are converted into elements by `toT` (the C++ `T(w)`).  The arrays
that pointers point into are named by numbers as in `Verif/Convolution/Model.lean`; a pointer is an
array and an offset.  Sizes and indices are natural numbers.
-/
import Verif.Convolution.Model
import Verif.Base.Model

namespace Altruct.Fft

open Convolution (Mem)
open Base (powT multiple)

variable {α R : Type} [CommRing α] [Monoid R]

/-! ### The in-place transform -/

/-- fft.h:26-29 one butterfly at `*data0` and `*data1 = *(data0 + h)`. -/
def bfly (toT : R → α) (h : Nat) (w : R) (data0 : Nat) (data : List α) : Option (List α) := do
  let x ← rd data data0
  let y ← rd data (data0 + h)
  let t := x - y
  let data ← wr data data0 (x + y)
  wr data (data0 + h) (t * toT w)

/-- fft.h:25-31 the loop over a half block, starting at `data0` with `c` steps left. -/
def halfBlock (toT : R → α) (h : Nat) (root : R) : Nat → Nat → R → List α → Option (List α)
  | 0, _, _, data => some data
  | c + 1, data0, w, data => do
    let data ← bfly toT h w data0 data
    halfBlock toT h root c (data0 + 1) (w * root) data

/-- fft.h:23-32 the loop over the blocks; `none` if `data0` misses `data + size`. -/
def blocks (toT : R → α) (h size : Nat) (root : R) : Nat → Nat → List α → Option (List α)
  | 0, data0, data => if data0 = size then some data else none
  | fuel + 1, data0, data =>
    if data0 = size then some data
    else do
      let data ← halfBlock toT h root h data0 1 data
      blocks toT h size root fuel (data0 + h + h) data

/-- fft.h:21-34 the stages. -/
def stages (toT : R → α) (size m : Nat) (root : R) (data : List α) : Option (List α) :=
  if _hm : 1 < m then do
    let data ← blocks toT (m / 2) size root size 0 data
    stages toT size (m / 2) (root * root) data
  else some data
termination_by m
decreasing_by omega

/-- fft.h:37 `for (int k = size / 2; (i ^= k) < k; k /= 2);`, the value of `i` afterwards. -/
def revInc (k i : Nat) : Nat :=
  if _h : i ^^^ k < k then revInc (k / 2) (i ^^^ k) else i ^^^ k
termination_by k
decreasing_by omega

/-- fft.h:38 `if (j < i) std::swap(data[i], data[j]);` -/
def swapIf (i j : Nat) (data : List α) : Option (List α) :=
  if j < i then do
    let x ← rd data i
    let y ← rd data j
    let data ← wr data i y
    wr data j x
  else some data

/-- fft.h:36-39 the reordering loop, `c` steps left. -/
def reorder (size : Nat) : Nat → Nat → Nat → List α → Option (List α)
  | 0, _, _, data => some data
  | c + 1, j, i, data => do
    let data ← swapIf (revInc (size / 2) i) j data
    reorder size c (j + 1) (revInc (size / 2) i) data

/-- fft.h:17-40 `fft`. -/
def fft (toT : R → α) (size : Nat) (root : R) (data : List α) : Option (List α) :=
  if size &&& (size - 1) ≠ 0 then some data
  else do
    let data ← stages toT size size root data
    reorder size (size - 2) 1 0 data

/-! ### The recursive transform -/

/-- fft.h:61-63 one step of the combining loop. -/
def combineStep (toT : R → α) (d dO h i : Nat) (rooti : R) (m : Mem α) : Option (Mem α) := do
  let a ← rd (m d) (dO + i + h)
  let z := a * toT rooti
  let x ← rd (m d) (dO + i)
  let v ← wr (m d) (dO + i + h) (x - z)
  let y ← rd v (dO + i)
  let v ← wr v (dO + i) (y + z)
  some (m.put d v)

/-- fft.h:60-64 the combining loop, `c` steps left. -/
def combine (toT : R → α) (d dO h : Nat) (root : R) : Nat → Nat → R → Mem α → Option (Mem α)
  | 0, _, _, m => some m
  | c + 1, i, rooti, m => do
    let m ← combineStep toT d dO h i rooti m
    combine toT d dO h root c (i + 1) (rooti * root) m

/-- fft.h:52-65 `fft_rec` from the array `s` (offset `sO`) to the array `d` (offset `dO`). -/
def fftRec (toT : R → α) (d s : Nat) (size : Nat) (root : R) (off dO sO : Nat) (m : Mem α) :
    Option (Mem α) :=
  if _hs : size ≤ 1 then do
    let x ← rd (m s) sO
    let v ← wr (m d) dO x
    some (m.put d v)
  else do
    let m ← fftRec toT d s (size / 2) (root * root) (off * 2) dO sO m
    let m ← fftRec toT d s (size / 2) (root * root) (off * 2) (dO + size / 2) (sO + off) m
    combine toT d dO (size / 2) root (size / 2) 0 1 m
termination_by size
decreasing_by all_goals omega

/-! ### Convolutions -/

/-- fft.h:97 `for (i) dataR[i] = data1[i] * data2[i]`. -/
def mulLoop (r f g : Nat) : Nat → Nat → Mem α → Option (Mem α)
  | 0, _, m => some m
  | c + 1, i, m => do
    let a ← rd (m f) i
    let b ← rd (m g) i
    let v ← wr (m r) i (a * b)
    mulLoop r f g c (i + 1) (m.put r v)

/-- fft.h:103 `for (i) dataR[i] *= isize`. -/
def scaleLoop (r : Nat) (s : α) : Nat → Nat → Mem α → Option (Mem α)
  | 0, _, m => some m
  | c + 1, i, m => do
    let a ← rd (m r) i
    let v ← wr (m r) i (a * s)
    scaleLoop r s c (i + 1) (m.put r v)

/-- fft.h:88-104 `fft_cyclic_convolution`; the three pointers are swapped as in the code.
`dv` is the division of `T`. -/
def cyclic (toT : R → α) (dv : α → α → α) (dataR data1 data2 size : Nat) (rootBase : R)
    (rootOrder : Nat) (m : Mem α) : Option (Mem α) := do
  let root := powT rootBase ((rootOrder / size : Nat) : Int)
  let iroot := powT root ((size - 1 : Nat) : Int)
  let m ← fftRec toT dataR data1 size root 1 0 0 m
  -- std::swap(data1, dataR)
  let m ← fftRec toT data1 data2 size root 1 0 0 m
  -- std::swap(data2, dataR): now dataR, data1, data2 are the former data2, dataR, data1
  let m ← mulLoop data2 dataR data1 size 0 m
  -- std::swap(data1, dataR): now dataR, data1 are the former dataR, data2
  let m ← fftRec toT dataR data2 size iroot 1 0 0 m
  scaleLoop dataR (dv (toT 1) ((size : Nat) : α)) size 0 m

/-- fft.h:122 `int l = 1; while (l < n) l *= 2;` (started at `l > 0`). -/
def powLen (n l : Nat) : Nat :=
  if _h : l < n ∧ 0 < l then powLen n (l * 2) else l
termination_by n - l
decreasing_by omega

/-- `v.resize(n, e0)`. -/
def resize (v : List α) (n : Nat) : List α := v.take n ++ List.replicate (n - v.length) 0

/-- Three local vectors `r`, `u`, `v` as arrays 0, 1, 2. -/
def mem3 (r u v : List α) : Mem α := fun k => if k = 0 then r else if k = 1 then u else v

/-- fft.h:117-127 `convolution`.  With both sequences empty, `n = -1` and `r.resize(n)` throws. -/
def convolution (toT : R → α) (dv : α → α → α) (u v : List α) (rootBase : R) (rootOrder : Nat) :
    Option (List α) :=
  if u.length + v.length = 0 then none
  else do
    let n := u.length + v.length - 1
    let l := powLen n 1
    let m ← cyclic toT dv 0 1 2 l rootBase rootOrder
      (mem3 (resize [] l) (resize u l) (resize v l))
    some (resize (m 0) n)

/-- fft.h:151 `for (int i = v_size; i < vv_size; i++) v[i] = v[i - v_size];`, `c` steps left. -/
def repeatLoop (vs : Nat) : Nat → Nat → List α → Option (List α)
  | 0, _, v => some v
  | c + 1, i, v => do
    let x ← rd v (i - vs)
    let v ← wr v i x
    repeatLoop vs c (i + 1) v

/-- fft.h:152 `for (int i = 1; i < u_size; i++) v[l - i] = v[vv_size - i];`, `c` steps left. -/
def wrapLoop (l vvs : Nat) : Nat → Nat → List α → Option (List α)
  | 0, _, v => some v
  | c + 1, i, v => do
    let x ← rd v (vvs - i)
    let v ← wr v (l - i) x
    wrapLoop l vvs c (i + 1) v

/-- fft.h:154 `for (int i = 1; i < u_size; i++) r[n - i] = r[u_size - 1 - i];`, `c` steps left. -/
def tailLoop (n us : Nat) : Nat → Nat → List α → Option (List α)
  | 0, _, r => some r
  | c + 1, i, r => do
    let x ← rd r (us - 1 - i)
    let r ← wr r (n - i) x
    tailLoop n us c (i + 1) r

/-- fft.h:141-157 `cyclic_convolution`.  `v` empty divides by zero; `u` empty is not modelled
(also `none`). -/
def cyclicConvolution (toT : R → α) (dv : α → α → α) (u v : List α) (rootBase : R)
    (rootOrder : Nat) : Option (List α) :=
  if u.length = 0 ∨ v.length = 0 then none
  else do
    let vvs := (multiple (v.length : Int) (u.length : Int)).toNat
    let n := v.length + u.length - 1
    let l := powLen (vvs + u.length - 1) 1
    let v' ← repeatLoop v.length (vvs - v.length) v.length (resize v l)
    let v' ← wrapLoop l vvs (u.length - 1) 1 v'
    let m ← cyclic toT dv 0 1 2 l rootBase rootOrder (mem3 (resize [] l) (resize u l) v')
    let r ← tailLoop n u.length (u.length - 1) 1 (m 0)
    some (resize r n)

end Altruct.Fft
