/-
C41: the fast convolutions compute the sums that the naive ones do.
-/
import Verif.Convolution.Transform
import Verif.Bits.TableProps

namespace Altruct.Convolution

set_option linter.unusedSectionVars false

variable {α : Type} [CommRing α]

/-! ### Specification -/

/-- The convolution over `op`: `r[c] = Σ f[i] * g[j]` over the pairs `i, j < n` with
`op i j = c`. -/
def conv (op : Nat → Nat → Nat) (n : Nat) (f g : Nat → α) (c : Nat) : α :=
  ∑ i ∈ Finset.range n, ∑ j ∈ Finset.range n, if op i j = c then f i * g j else 0

/-- The sum over the bit-subsets of `w`. -/
def subsetSum (n : Nat) (f : Nat → α) (w : Nat) : α :=
  ∑ i ∈ Finset.range n, if i &&& w = i then f i else 0

/-- The subset convolution: `r[w] = Σ f[i] * g[w ^ i]` over the bit-subsets `i` of `w`. -/
def subsetConv (n : Nat) (f g : Nat → α) (w : Nat) : α :=
  ∑ i ∈ Finset.range n, if i &&& w = i then f i * g (w ^^^ i) else 0

/-! ### The naive convolutions -/

theorem slowPut_spec {n : Nat} {r f g : List α} {R F G : Nat → α} (hr : Rep r n R)
    (hf : Rep f n F) (hg : Rep g n G) {i j k : Nat} (hi : i < n) (hj : j < n) (hk : k < n) :
    slowPut f g r i j k = some (r.set k (R k + F i * G j)) := by
  rw [slowPut, hr.rd hk, hf.rd hi, hg.rd hj]
  simp only [Option.bind_eq_bind, Option.bind_some]
  rw [hr.wr hk]

theorem slowInner_spec {op : Nat → Nat → Nat} {n : Nat} {f g : List α} {F G : Nat → α}
    (hf : Rep f n F) (hg : Rep g n G) {i : Nat} (hi : i < n) (hop : ∀ j, j < n → op i j < n) :
    ∀ (c j : Nat) (r : List α) (R : Nat → α), j + c = n → Rep r n R →
    ∃ r', slowInner op f g i c j r = some r' ∧
      Rep r' n (fun x => R x + ∑ t ∈ Finset.range c, if op i (j + t) = x then F i * G (j + t) else 0) := by
  intro c
  induction c with
  | zero => intro j r R _ hr; exact ⟨r, rfl, hr.congr (fun x _ => by simp)⟩
  | succ c ih =>
    intro j r R hj hr
    rw [slowInner, slowPut_spec hr hf hg hi (by omega) (hop j (by omega))]
    simp only [Option.bind_eq_bind, Option.bind_some]
    obtain ⟨r', e, h⟩ := ih (j + 1) _ _ (by omega) (hr.set _ _)
    refine ⟨r', e, h.congr (fun x _ => ?_)⟩
    rw [Finset.sum_range_succ']
    have : ∀ t, j + 1 + t = j + (t + 1) := fun t => by omega
    simp only [this, Nat.add_zero]
    by_cases hx : x = op i j
    · subst hx; rw [Function.update_self, if_pos rfl]; ring
    · rw [Function.update_of_ne hx, if_neg (Ne.symm hx)]; ring

theorem slowOuter_spec {op : Nat → Nat → Nat} {n : Nat} {f g : List α} {F G : Nat → α}
    (hf : Rep f n F) (hg : Rep g n G) (hop : ∀ i j, i < n → j < n → op i j < n) :
    ∀ (c i : Nat) (r : List α) (R : Nat → α), i + c = n → Rep r n R →
    ∃ r', slowOuter op f g n c i r = some r' ∧
      Rep r' n (fun x => R x + ∑ s ∈ Finset.range c, ∑ t ∈ Finset.range n,
        if op (i + s) t = x then F (i + s) * G t else 0) := by
  intro c
  induction c with
  | zero => intro i r R _ hr; exact ⟨r, rfl, hr.congr (fun x _ => by simp)⟩
  | succ c ih =>
    intro i r R hi hr
    obtain ⟨r1, e1, h1⟩ := slowInner_spec hf hg (i := i) (by omega) (fun j hj => hop i j (by omega) hj)
      n 0 r R (by omega) hr
    rw [slowOuter, e1]
    simp only [Option.bind_eq_bind, Option.bind_some]
    obtain ⟨r', e, h⟩ := ih (i + 1) _ _ (by omega) h1
    refine ⟨r', e, h.congr (fun x _ => ?_)⟩
    rw [Finset.sum_range_succ']
    have : ∀ t, i + 1 + t = i + (t + 1) := fun t => by omega
    simp only [this, Nat.zero_add, Nat.add_zero]
    ring

theorem slowK_spec {op : Nat → Nat → Nat} {n : Nat} {r f g : List α} {R F G : Nat → α}
    (hr : Rep r n R) (hf : Rep f n F) (hg : Rep g n G) (hop : ∀ i j, i < n → j < n → op i j < n) :
    ∃ r', slowK op n r f g = some r' ∧ Rep r' n (fun x => R x + conv op n F G x) := by
  obtain ⟨r', e, h⟩ := slowOuter_spec hf hg hop n 0 r R (by omega) hr
  exact ⟨r', e, h.congr (fun x _ => by simp [conv])⟩

/-- The naive convolutions add the convolution to what is in `r`. -/
theorem C41_slow {r f g : List α} {R F G : Nat → α} :
    (∀ L, Rep r (2 ^ L) R → Rep f (2 ^ L) F → Rep g (2 ^ L) G →
      (∃ r', slowAnd L r f g = some r' ∧ Rep r' (2 ^ L) (fun x => R x + conv (· &&& ·) (2 ^ L) F G x)) ∧
      (∃ r', slowOr L r f g = some r' ∧ Rep r' (2 ^ L) (fun x => R x + conv (· ||| ·) (2 ^ L) F G x)) ∧
      (∃ r', slowXor L r f g = some r' ∧ Rep r' (2 ^ L) (fun x => R x + conv (· ^^^ ·) (2 ^ L) F G x))) ∧
    (∀ n, Rep r n R → Rep f n F → Rep g n G →
      (∃ r', slowMax n r f g = some r' ∧ Rep r' n (fun x => R x + conv max n F G x)) ∧
      (∃ r', slowCyclic n r f g = some r' ∧
        Rep r' n (fun x => R x + conv (fun i j => (i + j) % n) n F G x))) := by
  refine ⟨fun L hr hf hg => ⟨?_, ?_, ?_⟩, fun n hr hf hg => ⟨?_, ?_⟩⟩
  · exact slowK_spec hr hf hg (fun i j hi _ => lt_of_le_of_lt Nat.and_le_left hi)
  · exact slowK_spec hr hf hg (fun i j hi hj => Nat.or_lt_two_pow hi hj)
  · exact slowK_spec hr hf hg (fun i j hi hj => Nat.xor_lt_two_pow hi hj)
  · exact slowK_spec hr hf hg (fun i j hi hj => by omega)
  · exact slowK_spec hr hf hg (fun i j hi hj => Nat.mod_lt _ (by omega))

/-! ### The transforms -/

/-- `M true true = 1` … of `(u, v) ↦ (u, v + u)`. -/
def mPlus : Bool → Bool → α
  | false, true => 0
  | _, _ => 1

/-- Of `(u, v) ↦ (u, v - u)`. -/
def mMinus : Bool → Bool → α
  | false, true => 0
  | true, false => -1
  | _, _ => 1

/-- Of `(u, v) ↦ (u + v, u - v)`. -/
def mWH : Bool → Bool → α
  | true, true => -1
  | _, _ => 1

theorem linear_plus : Linear (trPlus (α := α)) mPlus := by
  intro u v; simp [trPlus, mPlus, add_comm]

theorem linear_minus : Linear (trMinus (α := α)) mMinus := by
  intro u v; simp [trMinus, mMinus]; ring

theorem linear_WH : Linear (trWH (α := α)) mWH := by
  intro u v; simp [trWH, mWH]; ring

theorem kron_minus_plus (L : Nat) (f : Nat → α) {k : Nat} (hk : k < 2 ^ L) :
    kron mMinus L (kron mPlus L f) k = f k := by
  rw [kron_kron (c := 1) _ L f hk, one_pow, one_mul]
  intro a b
  cases a <;> cases b <;> simp [mMinus, mPlus]

theorem kron_plus_minus (L : Nat) (f : Nat → α) {k : Nat} (hk : k < 2 ^ L) :
    kron mPlus L (kron mMinus L f) k = f k := by
  rw [kron_kron (c := 1) _ L f hk, one_pow, one_mul]
  intro a b
  cases a <;> cases b <;> simp [mMinus, mPlus]

theorem kron_WH_WH (L : Nat) (f : Nat → α) {k : Nat} (hk : k < 2 ^ L) :
    kron mWH L (kron mWH L f) k = 2 ^ L * f k := by
  rw [kron_kron (c := 2) _ L f hk]
  intro a b
  cases a <;> cases b <;> simp [mWH] <;> ring

/-- The positive transform is the subset sum. -/
theorem kron_plus (L : Nat) (f : Nat → α) (k : Nat) :
    kron mPlus L f k = subsetSum (2 ^ L) f k := by
  rw [kron, subsetSum]
  apply Finset.sum_congr rfl
  intro i hi
  rw [Finset.mem_range] at hi
  by_cases h : i &&& k = i
  · rw [if_pos h, Finset.prod_eq_one, one_mul]
    intro b _
    have h1 : (i.testBit b && k.testBit b) = i.testBit b := by rw [← Nat.testBit_and, h]
    revert h1
    cases i.testBit b <;> cases k.testBit b <;> simp [mPlus]
  · rw [if_neg h]
    have : ∃ b, b < L ∧ i.testBit b = true ∧ k.testBit b = false := by
      by_contra hc
      push Not at hc
      apply h
      apply eq_of_low_bits (lt_of_le_of_lt Nat.and_le_left hi) hi
      intro b hb
      rw [Nat.testBit_and]
      have := hc b hb
      revert this
      cases i.testBit b <;> cases k.testBit b <;> simp
    obtain ⟨b, hb, h1, h2⟩ := this
    rw [Finset.prod_eq_zero (Finset.mem_range.mpr hb) (by rw [h1, h2]; rfl), zero_mul]

/-- The transform turns the convolution into a pointwise product when `M k` is multiplicative for
the operation. -/
theorem kron_conv {M : Bool → Bool → α} {opb : Bool → Bool → Bool} {op : Nat → Nat → Nat} {L : Nat}
    (hM : ∀ k a b, M k (opb a b) = M k a * M k b)
    (hop : ∀ i j b, (op i j).testBit b = opb (i.testBit b) (j.testBit b))
    (hlt : ∀ i j, i < 2 ^ L → j < 2 ^ L → op i j < 2 ^ L) (f g : Nat → α) (k : Nat) :
    kron M L (conv op (2 ^ L) f g) k = kron M L f k * kron M L g k := by
  have h1 : ∀ i j, (∏ b ∈ Finset.range L, M (k.testBit b) ((op i j).testBit b)) =
      (∏ b ∈ Finset.range L, M (k.testBit b) (i.testBit b)) *
        ∏ b ∈ Finset.range L, M (k.testBit b) (j.testBit b) := by
    intro i j
    rw [← Finset.prod_mul_distrib]
    apply Finset.prod_congr rfl
    intro b _
    rw [hop, hM]
  rw [kron, kron, kron, Finset.sum_mul_sum]
  simp only [conv, Finset.mul_sum]
  rw [Finset.sum_comm]
  apply Finset.sum_congr rfl
  intro i hi
  rw [Finset.sum_comm]
  apply Finset.sum_congr rfl
  intro j hj
  rw [Finset.mem_range] at hi hj
  rw [Finset.sum_eq_single (op i j)]
  · rw [if_pos rfl, h1]; ring
  · intro c _ hc
    rw [if_neg (Ne.symm hc), mul_zero]
  · intro h
    exact absurd (Finset.mem_range.mpr (hlt i j hi hj)) h

/-! ### Memory -/

@[simp] theorem put_self (m : Mem α) (a : Nat) (v : List α) : m.put a v a = v := by
  simp [Mem.put]

theorem put_ne (m : Mem α) {a b : Nat} (h : b ≠ a) (v : List α) : m.put a v b = m b := by
  simp [Mem.put, h]

theorem pointwise_spec {n : Nat} {r f g : Nat} {F G : Nat → α} :
    ∀ (c k : Nat) (m : Mem α), k + c = n → (m r).length = n →
    (∀ x, k ≤ x → x < n → rd (m f) x = some (F x)) →
    (∀ x, k ≤ x → x < n → rd (m g) x = some (G x)) →
    (∀ x, x < k → rd (m r) x = some (F x * G x)) →
    ∃ m', pointwise r f g c k m = some m' ∧ Rep (m' r) n (fun x => F x * G x) ∧
      ∀ a, a ≠ r → m' a = m a := by
  intro c
  induction c with
  | zero =>
    intro k m hk hl _ _ hr
    exact ⟨m, rfl, ⟨hl, fun x hx => hr x (by omega)⟩, fun _ _ => rfl⟩
  | succ c ih =>
    intro k m hk hl hf hg hr
    rw [pointwise, hf k le_rfl (by omega), hg k le_rfl (by omega)]
    simp only [Option.bind_eq_bind, Option.bind_some]
    rw [wr, if_pos (by omega)]
    simp only [Option.bind_some]
    have hput : ∀ a x, x ≠ k → rd ((m.put r ((m r).set k (F k * G k))) a) x = rd (m a) x := by
      intro a x hx
      by_cases ha : a = r
      · subst ha
        rw [put_self, rd, rd, List.getElem?_set_ne (Ne.symm hx)]
      · rw [put_ne _ ha]
    obtain ⟨m', e, h1, h2⟩ := ih (k + 1) (m.put r ((m r).set k (F k * G k))) (by omega)
      (by rw [put_self, List.length_set, hl])
      (fun x h1 h2 => by rw [hput f x (by omega)]; exact hf x (by omega) h2)
      (fun x h1 h2 => by rw [hput g x (by omega)]; exact hg x (by omega) h2)
      (fun x h1 => by
        by_cases hx : x = k
        · subst hx
          rw [put_self, rd, List.getElem?_set_self (by omega)]
        · rw [hput r x hx]; exact hr x (by omega))
    exact ⟨m', e, h1, fun a ha => by rw [h2 a ha, put_ne _ ha]⟩

/-- Transform both arguments, multiply pointwise: the part the three convolutions share.
`pre` transforms an array. -/
theorem prefix_spec {n : Nat} {r f g : Nat} {F G : Nat → α} {pre : List α → Option (List α)}
    {P : (Nat → α) → Nat → α} (hpre : ∀ v V, Rep v n V → ∃ v', pre v = some v' ∧ Rep v' n (P V))
    {m : Mem α} (hr : (m r).length = n) (hf : Rep (m f) n F) (hg : Rep (m g) n G) :
    ∃ v m1 m2, pre (m f) = some v ∧
      second pre f g (m.put f v) = some m1 ∧
      pointwise r f g n 0 m1 = some m2 ∧ Rep (m2 r) n (fun x => P F x * P G x) ∧
      ∀ a, a ≠ r → a ≠ f → a ≠ g → m2 a = m a := by
  obtain ⟨v, e1, h1⟩ := hpre _ _ hf
  have key : ∃ m1, second pre f g (m.put f v) = some m1 ∧ Rep (m1 f) n (P F) ∧ Rep (m1 g) n (P G) ∧
      (m1 r).length = n ∧ ∀ a, a ≠ f → a ≠ g → m1 a = m a := by
    rw [second]
    by_cases hgf : g = f
    · subst hgf
      rw [if_neg (by simp)]
      have hFG : ∀ x, x < n → F x = G x := fun x hx => hf.unique hg hx
      refine ⟨_, rfl, by rw [put_self]; exact h1, ?_, ?_, fun a ha _ => put_ne _ ha _⟩
      · rw [put_self]
        obtain ⟨v', e', h'⟩ := hpre _ _ hg
        rw [e1] at e'
        obtain rfl := Option.some.inj e'
        exact h'
      · by_cases hrf : r = g
        · subst hrf; rw [put_self]; exact h1.len
        · rw [put_ne _ hrf]; exact hr
    · rw [if_pos hgf, put_ne _ hgf]
      obtain ⟨v2, e2, h2⟩ := hpre _ _ hg
      rw [e2]
      refine ⟨_, rfl, ?_, by rw [put_self]; exact h2, ?_, ?_⟩
      · rw [put_ne _ (Ne.symm hgf), put_self]; exact h1
      · by_cases hrg : r = g
        · subst hrg; rw [put_self]; exact h2.len
        · rw [put_ne _ hrg]
          by_cases hrf : r = f
          · subst hrf; rw [put_self]; exact h1.len
          · rw [put_ne _ hrf]; exact hr
      · intro a ha hb
        rw [put_ne _ hb, put_ne _ ha]
  obtain ⟨m1, e2, k1, k2, k3, k4⟩ := key
  obtain ⟨m2, e3, h3, h4⟩ := pointwise_spec n 0 m1 (by omega) k3
    (fun x _ hx => k1.rd hx) (fun x _ hx => k2.rd hx) (fun x hx => by omega)
  exact ⟨v, m1, m2, e1, e2, e3, h3, fun a a1 a2 a3 => by rw [h4 a a1, k4 a a2 a3]⟩

/-- `or_convolution`, for arrays that may coincide in any way. -/
theorem C41_or {L : Nat} {r f g : Nat} {F G : Nat → α} {m : Mem α} (hr : (m r).length = 2 ^ L)
    (hf : Rep (m f) (2 ^ L) F) (hg : Rep (m g) (2 ^ L) G) :
    ∃ m', orConv L r f g m = some m' ∧ Rep (m' r) (2 ^ L) (conv (· ||| ·) (2 ^ L) F G) ∧
      ∀ a, a ≠ r → a ≠ f → a ≠ g → m' a = m a := by
  obtain ⟨v, m1, m2, e1, e2, e3, h3, h4⟩ := prefix_spec (pre := arithPlus L) (P := kron mPlus L)
    (fun v V h => dif_spec linear_plus h) hr hf hg
  obtain ⟨v3, e4, h5⟩ := dif_spec (linear_minus (α := α)) h3
  refine ⟨m2.put r v3, ?_, ?_, fun a a1 a2 a3 => by rw [put_ne _ a1, h4 a a1 a2 a3]⟩
  · rw [orConv, e1]
    simp only [Option.bind_eq_bind, Option.bind_some]
    rw [e2]
    simp only [Option.bind_some]
    rw [e3]
    simp only [Option.bind_some]
    rw [arithMinus, e4]
    rfl
  · rw [put_self]
    refine h5.congr (fun x hx => ?_)
    rw [kron_congr mMinus L (g := kron mPlus L (conv (· ||| ·) (2 ^ L) F G)) (fun i _ =>
      (kron_conv (opb := (· || ·)) (by intro k a b; cases k <;> cases a <;> cases b <;> simp [mPlus])
        (fun i j b => Nat.testBit_or i j b) (fun i j hi hj => Nat.or_lt_two_pow hi hj) F G i).symm)]
    exact kron_minus_plus L _ hx

theorem rep_reverse {v : List α} {n : Nat} {g : Nat → α} (h : Rep v n g) :
    Rep v.reverse n (fun x => g (n - 1 - x)) := by
  refine ⟨by simp [h.len], fun i hi => ?_⟩
  rw [List.getElem?_reverse (by rw [h.len]; exact hi), h.len]
  exact h.get _ (by omega)

theorem testBit_compl {L x b : Nat} (hx : x < 2 ^ L) (hb : b < L) :
    (2 ^ L - 1 - x).testBit b = !x.testBit b := by
  have h := Nat.testBit_two_pow_sub_succ hx b
  rw [show 2 ^ L - (x + 1) = 2 ^ L - 1 - x by omega] at h
  rw [h]
  simp [hb]

theorem compl_or {L i j : Nat} (hi : i < 2 ^ L) (hj : j < 2 ^ L) :
    (2 ^ L - 1 - i) ||| (2 ^ L - 1 - j) = 2 ^ L - 1 - (i &&& j) := by
  have hij : i &&& j < 2 ^ L := lt_of_le_of_lt Nat.and_le_left hi
  have hp := Nat.two_pow_pos L
  apply eq_of_low_bits (L := L) (Nat.or_lt_two_pow (by omega) (by omega)) (by omega)
  intro b hb
  rw [Nat.testBit_or, testBit_compl hi hb, testBit_compl hj hb, testBit_compl hij hb,
    Nat.testBit_and]
  cases i.testBit b <;> cases j.testBit b <;> rfl

theorem sum_compl (n : Nat) (h : Nat → α) :
    ∑ i ∈ Finset.range n, h (n - 1 - i) = ∑ i ∈ Finset.range n, h i :=
  Finset.sum_range_reflect h n

/-- The or-convolution of the reversed arrays is the reversed and-convolution. -/
theorem conv_or_compl {L : Nat} (F G : Nat → α) {x : Nat} (hx : x < 2 ^ L) :
    conv (· ||| ·) (2 ^ L) (fun i => F (2 ^ L - 1 - i)) (fun i => G (2 ^ L - 1 - i)) (2 ^ L - 1 - x) =
      conv (· &&& ·) (2 ^ L) F G x := by
  have hp := Nat.two_pow_pos L
  rw [conv, conv]
  rw [← sum_compl (2 ^ L) (fun i => ∑ j ∈ Finset.range (2 ^ L),
    if i &&& j = x then F i * G j else 0)]
  apply Finset.sum_congr rfl
  intro i hi
  rw [Finset.mem_range] at hi
  rw [← sum_compl (2 ^ L) (fun j => if (2 ^ L - 1 - i) &&& j = x then F (2 ^ L - 1 - i) * G j else 0)]
  apply Finset.sum_congr rfl
  intro j hj
  rw [Finset.mem_range] at hj
  have h1 : i ||| j = 2 ^ L - 1 - ((2 ^ L - 1 - i) &&& (2 ^ L - 1 - j)) := by
    rw [← compl_or (by omega) (by omega)]
    congr 1 <;> omega
  have h2 : (2 ^ L - 1 - i) &&& (2 ^ L - 1 - j) < 2 ^ L := lt_of_le_of_lt Nat.and_le_left (by omega)
  have h3 : (i ||| j = 2 ^ L - 1 - x) ↔ ((2 ^ L - 1 - i) &&& (2 ^ L - 1 - j) = x) := by
    rw [h1]; omega
  simp only [h3]

/-- `and_convolution`, for arrays that may coincide in any way. -/
theorem C41_and {L : Nat} {r f g : Nat} {F G : Nat → α} {m : Mem α} (hr : (m r).length = 2 ^ L)
    (hf : Rep (m f) (2 ^ L) F) (hg : Rep (m g) (2 ^ L) G) :
    ∃ m', andConv L r f g m = some m' ∧ Rep (m' r) (2 ^ L) (conv (· &&& ·) (2 ^ L) F G) ∧
      ∀ a, a ≠ r → a ≠ f → a ≠ g → m' a = m a := by
  obtain ⟨v, m1, m2, e1, e2, e3, h3, h4⟩ := prefix_spec (pre := fun v => arithPlus L v.reverse)
    (P := fun V => kron mPlus L (fun x => V (2 ^ L - 1 - x)))
    (fun v V h => dif_spec linear_plus (rep_reverse h)) hr hf hg
  obtain ⟨v3, e4, h5⟩ := dif_spec (linear_minus (α := α)) h3
  refine ⟨m2.put r v3.reverse, ?_, ?_, fun a a1 a2 a3 => by rw [put_ne _ a1, h4 a a1 a2 a3]⟩
  · rw [andConv, e1]
    simp only [Option.bind_eq_bind, Option.bind_some]
    rw [e2]
    simp only [Option.bind_some]
    rw [e3]
    simp only [Option.bind_some]
    rw [arithMinus, e4]
    rfl
  · rw [put_self]
    refine (rep_reverse h5).congr (fun x hx => ?_)
    rw [kron_congr mMinus L (g := kron mPlus L (conv (· ||| ·) (2 ^ L)
        (fun x => F (2 ^ L - 1 - x)) (fun x => G (2 ^ L - 1 - x)))) (fun i _ =>
      (kron_conv (opb := (· || ·)) (by intro k a b; cases k <;> cases a <;> cases b <;> simp [mPlus])
        (fun i j b => Nat.testBit_or i j b) (fun i j hi hj => Nat.or_lt_two_pow hi hj) _ _ i).symm)]
    rw [kron_minus_plus L _ (by omega)]
    exact conv_or_compl F G hx

theorem divLoop_spec {div : α → Nat → α} {n d : Nat} : ∀ (c k : Nat) (r : List α) (R : Nat → α),
    k + c = n → Rep r n R →
    ∃ r', divLoop div d c k r = some r' ∧
      Rep r' n (fun x => if k ≤ x then div (R x) d else R x) := by
  intro c
  induction c with
  | zero =>
    intro k r R hk hr
    exact ⟨r, rfl, hr.congr (fun x hx => by rw [if_neg (by omega)])⟩
  | succ c ih =>
    intro k r R hk hr
    rw [divLoop, hr.rd (by omega)]
    simp only [Option.bind_eq_bind, Option.bind_some]
    rw [hr.wr (by omega)]
    simp only [Option.bind_some]
    obtain ⟨r', e, h⟩ := ih (k + 1) _ _ (by omega) (hr.set k _)
    refine ⟨r', e, h.congr (fun x _ => ?_)⟩
    by_cases hx : x = k
    · subst hx; rw [if_neg (by omega), if_pos le_rfl, Function.update_self]
    · rw [Function.update_of_ne hx]
      by_cases h2 : k ≤ x
      · rw [if_pos (by omega), if_pos h2]
      · rw [if_neg (by omega), if_neg h2]

/-- `xor_convolution`, for arrays that may coincide in any way, whenever the division of the
element type undoes a multiplication by `2^L` (integers, fields of odd characteristic, …). -/
theorem C41_xor {div : α → Nat → α} {L : Nat} (hdiv : ∀ x : α, div (2 ^ L * x) (2 ^ L) = x)
    {r f g : Nat} {F G : Nat → α} {m : Mem α} (hr : (m r).length = 2 ^ L)
    (hf : Rep (m f) (2 ^ L) F) (hg : Rep (m g) (2 ^ L) G) :
    ∃ m', xorConv div L r f g m = some m' ∧ Rep (m' r) (2 ^ L) (conv (· ^^^ ·) (2 ^ L) F G) ∧
      ∀ a, a ≠ r → a ≠ f → a ≠ g → m' a = m a := by
  obtain ⟨v, m1, m2, e1, e2, e3, h3, h4⟩ := prefix_spec (pre := walshHadamard L) (P := kron mWH L)
    (fun v V h => dif_spec linear_WH h) hr hf hg
  obtain ⟨v3, e4, h5⟩ := dif_spec (linear_WH (α := α)) h3
  obtain ⟨v4, e5, h6⟩ := divLoop_spec (div := div) (d := 2 ^ L) (2 ^ L) 0 v3 _ (by omega) h5
  refine ⟨m2.put r v4, ?_, ?_, fun a a1 a2 a3 => by rw [put_ne _ a1, h4 a a1 a2 a3]⟩
  · rw [xorConv, e1]
    simp only [Option.bind_eq_bind, Option.bind_some]
    rw [e2]
    simp only [Option.bind_some]
    rw [e3]
    simp only [Option.bind_some]
    rw [walshHadamard, e4]
    simp only [Option.bind_some]
    rw [e5]
    rfl
  · rw [put_self]
    refine h6.congr (fun x hx => ?_)
    rw [if_pos (Nat.zero_le x)]
    rw [kron_congr mWH L (g := kron mWH L (conv (· ^^^ ·) (2 ^ L) F G)) (fun i _ =>
      (kron_conv (opb := (· ^^ ·)) (by intro k a b; cases k <;> cases a <;> cases b <;> simp [mWH])
        (fun i j b => Nat.testBit_xor i j b) (fun i j hi hj => Nat.xor_lt_two_pow hi hj) F G i).symm)]
    rw [kron_WH_WH L _ hx, hdiv]

/-! ### Max-convolution -/

theorem conv_max_eq (n : Nat) (F G : Nat → α) {x : Nat} (hx : x < n) :
    conv max n F G x = F x * G x + (∑ i ∈ Finset.range x, F i) * G x +
      (∑ i ∈ Finset.range x, G i) * F x := by
  have h1 : ∀ i ∈ Finset.range n, (∑ j ∈ Finset.range n, if max i j = x then F i * G j else 0) =
      if i < x then F i * G x else if i = x then F x * ((∑ j ∈ Finset.range x, G j) + G x) else 0 := by
    intro i hi
    rw [Finset.mem_range] at hi
    by_cases c1 : i < x
    · rw [if_pos c1, Finset.sum_eq_single x]
      · rw [if_pos (by omega)]
      · intro j _ hj; rw [if_neg (by omega)]
      · intro h; exact absurd (Finset.mem_range.mpr hx) h
    · rw [if_neg c1]
      by_cases c2 : i = x
      · subst c2
        rw [if_pos rfl, ← Finset.sum_range_succ, Finset.mul_sum]
        obtain ⟨d, rfl⟩ : ∃ d, n = i + 1 + d := ⟨n - (i + 1), by omega⟩
        rw [Finset.sum_range_add]
        have : ∑ t ∈ Finset.range d, (if max i (i + 1 + t) = i then F i * G (i + 1 + t) else 0) = 0 :=
          Finset.sum_eq_zero (fun t _ => by rw [if_neg (by omega)])
        rw [this, add_zero]
        apply Finset.sum_congr rfl
        intro j hj
        rw [Finset.mem_range] at hj
        rw [if_pos (by omega)]
      · rw [if_neg c2]
        exact Finset.sum_eq_zero (fun j _ => by rw [if_neg (by omega)])
  rw [conv, Finset.sum_congr rfl h1]
  obtain ⟨d, rfl⟩ : ∃ d, n = x + 1 + d := ⟨n - (x + 1), by omega⟩
  rw [Finset.sum_range_add, Finset.sum_range_succ]
  have h2 : ∑ t ∈ Finset.range d, (if x + 1 + t < x then F (x + 1 + t) * G x
      else if x + 1 + t = x then F x * ((∑ j ∈ Finset.range x, G j) + G x) else 0) = 0 :=
    Finset.sum_eq_zero (fun t _ => by rw [if_neg (by omega), if_neg (by omega)])
  have h3 : ∑ i ∈ Finset.range x, (if i < x then F i * G x
      else if i = x then F x * ((∑ j ∈ Finset.range x, G j) + G x) else 0) =
      (∑ i ∈ Finset.range x, F i) * G x := by
    rw [Finset.sum_mul]
    apply Finset.sum_congr rfl
    intro i hi
    rw [if_pos (Finset.mem_range.mp hi)]
  rw [h2, h3, if_neg (lt_irrefl _), if_pos rfl]
  ring

theorem maxLoop_spec {n : Nat} {r f g : Nat} {F G : Nat → α} :
    ∀ (c k : Nat) (m : Mem α), k + c = n → (m r).length = n →
    (∀ x, k ≤ x → x < n → rd (m f) x = some (F x)) →
    (∀ x, k ≤ x → x < n → rd (m g) x = some (G x)) →
    (∀ x, x < k → rd (m r) x = some (conv max n F G x)) →
    ∃ m', maxLoop r f g c k (∑ i ∈ Finset.range k, F i) (∑ i ∈ Finset.range k, G i) m = some m' ∧
      Rep (m' r) n (conv max n F G) ∧ ∀ a, a ≠ r → m' a = m a := by
  intro c
  induction c with
  | zero =>
    intro k m hk hl _ _ hr
    exact ⟨m, rfl, ⟨hl, fun x hx => hr x (by omega)⟩, fun _ _ => rfl⟩
  | succ c ih =>
    intro k m hk hl hf hg hr
    rw [maxLoop, hf k le_rfl (by omega), hg k le_rfl (by omega)]
    simp only [Option.bind_eq_bind, Option.bind_some]
    rw [wr, if_pos (by omega)]
    simp only [Option.bind_some]
    rw [← Finset.sum_range_succ, ← Finset.sum_range_succ, ← conv_max_eq n F G (by omega)]
    have hput : ∀ a x, x ≠ k → rd ((m.put r ((m r).set k (conv max n F G k))) a) x = rd (m a) x := by
      intro a x hx
      by_cases ha : a = r
      · subst ha
        rw [put_self, rd, rd, List.getElem?_set_ne (Ne.symm hx)]
      · rw [put_ne _ ha]
    obtain ⟨m', e, h1, h2⟩ := ih (k + 1) (m.put r ((m r).set k (conv max n F G k))) (by omega)
      (by rw [put_self, List.length_set, hl])
      (fun x h1 h2 => by rw [hput f x (by omega)]; exact hf x (by omega) h2)
      (fun x h1 h2 => by rw [hput g x (by omega)]; exact hg x (by omega) h2)
      (fun x h1 => by
        by_cases hx : x = k
        · subst hx
          rw [put_self, rd, List.getElem?_set_self (by omega)]
        · rw [hput r x hx]; exact hr x (by omega))
    exact ⟨m', e, h1, fun a ha => by rw [h2 a ha, put_ne _ ha]⟩

/-- `max_convolution` for every `n`, for arrays that may coincide in any way. -/
theorem C41_max {n : Nat} {r f g : Nat} {F G : Nat → α} {m : Mem α} (hr : (m r).length = n)
    (hf : Rep (m f) n F) (hg : Rep (m g) n G) :
    ∃ m', maxConv n r f g m = some m' ∧ Rep (m' r) n (conv max n F G) ∧
      ∀ a, a ≠ r → m' a = m a := by
  have := maxLoop_spec (r := r) (f := f) (g := g) (F := F) (G := G) n 0 m (by omega) hr
    (fun x _ hx => hf.rd hx) (fun x _ hx => hg.rd hx) (fun x hx => by omega)
  simpa [maxConv] using this

end Altruct.Convolution
