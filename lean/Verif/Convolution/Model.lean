/-
Model of `include/altruct/algorithm/math/convolutions.h`.

The arrays that the pointers `r`, `f`, `g` point to are named by numbers; two pointers are the
same array iff their numbers are equal.  (Partially overlapping arrays are not modelled.)
Indices are natural numbers; the overflow of `1 << log_n` is not modelled.
-/
import Verif.Common.Vec
import Verif.Bits.Model
import Mathlib.Algebra.Ring.Basic

namespace Altruct.Convolution

variable {α : Type}

/-- The arrays in memory. -/
def Mem (α : Type) := Nat → List α

/-- Memory after the array `a` was given the contents `v`. -/
def Mem.put (m : Mem α) (a : Nat) (v : List α) : Mem α := fun b => if b = a then v else m b

/-! ### Slow convolutions -/

section slow

variable [Add α] [Mul α]

/-- convolutions.h:22 `r[k] += f[i] * g[j]`. -/
def slowPut (f g r : List α) (i j k : Nat) : Option (List α) := do
  let x ← rd r k
  let a ← rd f i
  let b ← rd g j
  wr r k (x + a * b)

/-- convolutions.h:20-23 the loop over `j`. -/
def slowInner (op : Nat → Nat → Nat) (f g : List α) (i : Nat) : Nat → Nat → List α →
    Option (List α)
  | 0, _, r => some r
  | c + 1, j, r => do
    let r ← slowPut f g r i j (op i j)
    slowInner op f g i c (j + 1) r

/-- convolutions.h:19-24 the loop over `i`. -/
def slowOuter (op : Nat → Nat → Nat) (f g : List α) (n : Nat) : Nat → Nat → List α →
    Option (List α)
  | 0, _, r => some r
  | c + 1, i, r => do
    let r ← slowInner op f g i n 0 r
    slowOuter op f g n c (i + 1) r

/-- convolutions.h:17-25 `slow_k_convolution`.  `r` must not be `f` or `g`. -/
def slowK (op : Nat → Nat → Nat) (n : Nat) (r f g : List α) : Option (List α) :=
  slowOuter op f g n n 0 r

/-- convolutions.h:27-30 `slow_and_convolution`. -/
def slowAnd (L : Nat) (r f g : List α) := slowK (· &&& ·) (2 ^ L) r f g
/-- convolutions.h:31-34 `slow_or_convolution`. -/
def slowOr (L : Nat) (r f g : List α) := slowK (· ||| ·) (2 ^ L) r f g
/-- convolutions.h:35-38 `slow_xor_convolution`. -/
def slowXor (L : Nat) (r f g : List α) := slowK (· ^^^ ·) (2 ^ L) r f g
/-- convolutions.h:39-42 `slow_max_convolution`. -/
def slowMax (n : Nat) (r f g : List α) := slowK (fun i j => max i j) n r f g
/-- convolutions.h:43-46 `slow_cyclic_convolution`. -/
def slowCyclic (n : Nat) (r f g : List α) := slowK (fun i j => (i + j) % n) n r f g

end slow

/-! ### Radix-2 transform -/

/-- convolutions.h:59 `tr(f[k1], f[k2])`; `tr` returns the new values of its arguments. -/
def butterfly (tr : α → α → α × α) (f : List α) (k1 k2 : Nat) : Option (List α) := do
  let u ← rd f k1
  let v ← rd f k2
  let f ← wr f k1 (tr u v).1
  wr f k2 (tr u v).2

/-- convolutions.h:58-60 the loop over `j`, `c` iterations left. -/
def difInner (tr : α → α → α × α) : Nat → Nat → Nat → List α → Option (List α)
  | 0, _, _, f => some f
  | c + 1, k1, k2, f => do
    let f ← butterfly tr f k1 k2
    difInner tr c (k1 + 1) (k2 + 1) f

/-- convolutions.h:56-61 the loop over `i`; `none` for `m = 0` (no progress). -/
def difMid (tr : α → α → α × α) (n m : Nat) (i : Nat) (f : List α) : Option (List α) :=
  if i < n then
    if m = 0 then none
    else
      match difInner tr (m / 2) i (i + m / 2) f with
      | none => none
      | some f => difMid tr n m (i + m) f
  else some f
termination_by n - i
decreasing_by omega

/-- convolutions.h:54-62 the loop over `log_m`. -/
def difOuter (tr : α → α → α × α) (n : Nat) : Nat → List α → Option (List α)
  | 0, f => some f
  | s + 1, f => do
    let f ← difMid tr n (2 ^ (s + 1)) 0 f
    difOuter tr n s f

/-- convolutions.h:51-63 `fast_radix2_dif_transform`. -/
def dif (tr : α → α → α × α) (L : Nat) (f : List α) : Option (List α) := difOuter tr (2 ^ L) L f

section ring

variable [CommRing α]

/-- convolutions.h:72 the Walsh-Hadamard step. -/
def trWH (u v : α) : α × α := let t := u - v; (u + v, t)
/-- convolutions.h:83. -/
def trPlus (u v : α) : α × α := (u, v + u)
/-- convolutions.h:94. -/
def trMinus (u v : α) : α × α := (u, v - u)

/-- convolutions.h:68-74 `fast_walsh_hadamard_transform`. -/
def walshHadamard (L : Nat) (f : List α) := dif trWH L f
/-- convolutions.h:79-85 `fast_arith_transform_plus`. -/
def arithPlus (L : Nat) (f : List α) := dif trPlus L f
/-- convolutions.h:90-96 `fast_arith_transform_minus`. -/
def arithMinus (L : Nat) (f : List α) := dif trMinus L f

/-- convolutions.h:112, 130, 148 `for (k < n) r[k] = f[k] * g[k]`, `c` iterations left. -/
def pointwise (r f g : Nat) : Nat → Nat → Mem α → Option (Mem α)
  | 0, _, m => some m
  | c + 1, k, m => do
    let a ← rd (m f) k
    let b ← rd (m g) k
    let v ← wr (m r) k (a * b)
    pointwise r f g c (k + 1) (m.put r v)

/-- convolutions.h:111, 129, 147 `if (g != f)` transform `g` too. -/
def second (pre : List α → Option (List α)) (f g : Nat) (m : Mem α) : Option (Mem α) :=
  if g ≠ f then (pre (m g)).map (m.put g) else some m

/-- convolutions.h:107-114 `and_convolution`.  (`std::reverse(f, f + n)` reverses the whole
array, which has `n` elements.) -/
def andConv (L : Nat) (r f g : Nat) (m : Mem α) : Option (Mem α) := do
  let v ← arithPlus L (m f).reverse
  let m := m.put f v
  let m ← second (fun v => arithPlus L v.reverse) f g m
  let m ← pointwise r f g (2 ^ L) 0 m
  let v ← arithMinus L (m r)
  some (m.put r v.reverse)

/-- convolutions.h:125-132 `or_convolution`. -/
def orConv (L : Nat) (r f g : Nat) (m : Mem α) : Option (Mem α) := do
  let v ← arithPlus L (m f)
  let m := m.put f v
  let m ← second (arithPlus L) f g m
  let m ← pointwise r f g (2 ^ L) 0 m
  let v ← arithMinus L (m r)
  some (m.put r v)

/-- convolutions.h:150 `r[k] /= n` for all `k`; `div x n` is the division of the element type. -/
def divLoop (div : α → Nat → α) (n : Nat) : Nat → Nat → List α → Option (List α)
  | 0, _, r => some r
  | c + 1, k, r => do
    let x ← rd r k
    let r ← wr r k (div x n)
    divLoop div n c (k + 1) r

/-- convolutions.h:143-151 `xor_convolution`. -/
def xorConv (div : α → Nat → α) (L : Nat) (r f g : Nat) (m : Mem α) : Option (Mem α) := do
  let v ← walshHadamard L (m f)
  let m := m.put f v
  let m ← second (walshHadamard L) f g m
  let m ← pointwise r f g (2 ^ L) 0 m
  let v ← walshHadamard L (m r)
  let v ← divLoop div (2 ^ L) (2 ^ L) 0 v
  some (m.put r v)

/-- convolutions.h:166-169 the loop of `max_convolution`; `sf`, `sg` are the prefix sums. -/
def maxLoop (r f g : Nat) : Nat → Nat → α → α → Mem α → Option (Mem α)
  | 0, _, _, _, m => some m
  | c + 1, k, sf, sg, m => do
    let a ← rd (m f) k
    let b ← rd (m g) k
    let x := a * b + sf * b + sg * a
    let v ← wr (m r) k x
    maxLoop r f g c (k + 1) (sf + a) (sg + b) (m.put r v)

/-- convolutions.h:162-170 `max_convolution`.  (`zeroT::of(*f)` reads `f[0]` only for its
type.) -/
def maxConv (n : Nat) (r f g : Nat) (m : Mem α) : Option (Mem α) := maxLoop r f g n 0 0 0 m

/-! ### Subset sums -/

/-- convolutions.h:186-189 the enumeration of the submasks of `w`, for `slow_subset_sum` with
`term sub = f[sub]` and (259-262) for `slow_subset_convolution` with
`term sub = f[sub] * g[w ^ sub]`; `x` is `r[w]`. -/
def subLoop (term : Nat → Option α) (w sub : Nat) (x : α) : Option α :=
  match term sub with
  | none => none
  | some t => if _h : sub = 0 then some (x + t) else subLoop term w ((sub - 1) &&& w) (x + t)
termination_by sub
decreasing_by
  have : (sub - 1) &&& w ≤ sub - 1 := Nat.and_le_left
  omega

/-- convolutions.h:184-190 and 257-263: the loop over `w`. -/
def slowSubsetLoop (term : Nat → Nat → Option α) : Nat → Nat → List α → Option (List α)
  | 0, _, r => some r
  | c + 1, w, r => do
    let x ← subLoop (term w) w w 0
    let r ← wr r w x
    slowSubsetLoop term c (w + 1) r

/-- convolutions.h:181-191 `slow_subset_sum`.  `f` and `r` are different arrays. -/
def slowSubsetSum (L : Nat) (r f : List α) : Option (List α) :=
  slowSubsetLoop (fun _ sub => rd f sub) (2 ^ L) 0 r

/-- convolutions.h:255-264 `slow_subset_convolution`.  `r` is neither `f` nor `g`. -/
def slowSubsetConv (L : Nat) (r f g : List α) : Option (List α) :=
  slowSubsetLoop (fun w sub => do
    let a ← rd f sub
    let b ← rd g (w ^^^ sub)
    some (a * b)) (2 ^ L) 0 r

/-- convolutions.h:206-208, 232-234 the copy loop. -/
def copyLoop (f : List α) : Nat → Nat → List α → Option (List α)
  | 0, _, r => some r
  | c + 1, w, r => do
    let x ← rd f w
    let r ← wr r w x
    copyLoop f c (w + 1) r

/-- convolutions.h:213, 239 `r[w] += r[w ^ (1 << i)]`, or `-=`. -/
def subsetPut (add : α → α → α) (r : List α) (w v : Nat) : Option (List α) := do
  let x ← rd r w
  let y ← rd r v
  wr r w (add x y)

/-- convolutions.h:212-214, 238-240 the body of the loop over `w`. -/
def subsetStep (add : α → α → α) (i w : Nat) (r : List α) : Option (List α) :=
  if w &&& (1 <<< i) ≠ 0 then subsetPut add r w (w ^^^ (1 <<< i)) else some r

/-- convolutions.h:211-215, 237-241 the loop over `w`. -/
def subsetInner (add : α → α → α) (i : Nat) : Nat → Nat → List α → Option (List α)
  | 0, _, r => some r
  | c + 1, w, r => do
    let r ← subsetStep add i w r
    subsetInner add i c (w + 1) r

/-- convolutions.h:210-216, 236-242 the loop over the bits, `c` iterations left. -/
def subsetOuter (add : α → α → α) (n : Nat) : Nat → Nat → List α → Option (List α)
  | 0, _, r => some r
  | c + 1, i, r => do
    let r ← subsetInner add i n 0 r
    subsetOuter add n c (i + 1) r

/-- convolutions.h:202-217 `fast_subset_sum`; `f = none` when `f` and `r` are the same array. -/
def fastSubsetSum (L : Nat) (r : List α) (f : Option (List α)) : Option (List α) := do
  let r ← match f with
    | some f => copyLoop f (2 ^ L) 0 r
    | none => some r
  subsetOuter (fun x y => x + y) (2 ^ L) L 0 r

/-- convolutions.h:228-243 `fast_subset_sum_inverse`. -/
def fastSubsetSumInverse (L : Nat) (r : List α) (f : Option (List α)) : Option (List α) := do
  let r ← match f with
    | some f => copyLoop f (2 ^ L) 0 r
    | none => some r
  subsetOuter (fun x y => x - y) (2 ^ L) L 0 r

/-! ### Subset convolution -/

/-- `a[i][j]` of a vector of vectors. -/
def rd2 (a : List (List α)) (i j : Nat) : Option α := do
  let v ← rd a i
  rd v j

/-- `a[i][j] = x` of a vector of vectors. -/
def wr2 (a : List (List α)) (i j : Nat) (x : α) : Option (List (List α)) := do
  let v ← rd a i
  let v ← wr v j x
  wr a i v

/-- convolutions.h:280-283 the ranked copies: `f1[bit_cnt1(w)][w] = f[w]`. -/
def rankLoop (cnt : Nat → Option Nat) (f : List α) : Nat → Nat → List (List α) →
    Option (List (List α))
  | 0, _, f1 => some f1
  | c + 1, w, f1 => do
    let k ← cnt w
    let x ← rd f w
    let f1 ← wr2 f1 k w x
    rankLoop cnt f c (w + 1) f1

/-- convolutions.h:284-287, 295-297: transform every row of a vector of vectors. -/
def mapRows (t : List α → Option (List α)) : Nat → Nat → List (List α) → Option (List (List α))
  | 0, _, a => some a
  | c + 1, i, a => do
    let v ← rd a i
    let v ← t v
    let a ← wr a i v
    mapRows t c (i + 1) a

/-- convolutions.h:290-292 the loop over `w`. -/
def rankMulW (f1 g1 : List (List α)) (k j : Nat) : Nat → Nat → List (List α) →
    Option (List (List α))
  | 0, _, h1 => some h1
  | c + 1, w, h1 => do
    let x ← rd2 h1 k w
    let a ← rd2 f1 j w
    let b ← rd2 g1 (k - j) w
    let h1 ← wr2 h1 k w (x + a * b)
    rankMulW f1 g1 k j c (w + 1) h1

/-- convolutions.h:289-293 the loop over `j`, `c` iterations left. -/
def rankMulJ (f1 g1 : List (List α)) (n k : Nat) : Nat → Nat → List (List α) →
    Option (List (List α))
  | 0, _, h1 => some h1
  | c + 1, j, h1 => do
    let h1 ← rankMulW f1 g1 k j n 0 h1
    rankMulJ f1 g1 n k c (j + 1) h1

/-- convolutions.h:288-294 the loop over `k`. -/
def rankMulK (f1 g1 : List (List α)) (n : Nat) : Nat → Nat → List (List α) →
    Option (List (List α))
  | 0, _, h1 => some h1
  | c + 1, k, h1 => do
    let h1 ← rankMulJ f1 g1 n k (k + 1) 0 h1
    rankMulK f1 g1 n c (k + 1) h1

/-- convolutions.h:298-300 `r[w] = h1[bit_cnt1(w)][w]`. -/
def unrankLoop (cnt : Nat → Option Nat) (h1 : List (List α)) : Nat → Nat → List α →
    Option (List α)
  | 0, _, r => some r
  | c + 1, w, r => do
    let k ← cnt w
    let x ← rd2 h1 k w
    let r ← wr r w x
    unrankLoop cnt h1 c (w + 1) r

/-- convolutions.h:276-301 `fast_subset_convolution`.  All of `f` and `g` is read before `r` is
written, so `r` may be any of them. -/
def fastSubsetConvWith (cnt : Nat → Option Nat) (L : Nat) (r f g : Nat) (m : Mem α) :
    Option (Mem α) := do
  let z : List (List α) := List.replicate (L + 1) (List.replicate (2 ^ L) 0)
  let f1 ← rankLoop cnt (m f) (2 ^ L) 0 z
  let g1 ← rankLoop cnt (m g) (2 ^ L) 0 z
  let f1 ← mapRows (fun v => fastSubsetSum L v none) (L + 1) 0 f1
  let g1 ← mapRows (fun v => fastSubsetSum L v none) (L + 1) 0 g1
  let h1 ← rankMulK f1 g1 (2 ^ L) (L + 1) 0 z
  let h1 ← mapRows (fun v => fastSubsetSumInverse L v none) (L + 1) 0 h1
  let v ← unrankLoop cnt h1 (2 ^ L) 0 (m r)
  some (m.put r v)

/-- convolutions.h:276-301 with `bit_cnt1(uint32_t)` of bits.cpp. -/
def fastSubsetConv (T : Bits.Tables) (L : Nat) (r f g : Nat) (m : Mem α) : Option (Mem α) :=
  fastSubsetConvWith (fun w => Bits.bitCnt1 T .w32 (BitVec.ofNat 32 w)) L r f g m

end ring

end Altruct.Convolution
