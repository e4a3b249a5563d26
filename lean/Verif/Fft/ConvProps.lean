/-
C42: the convolutions computed through the Fourier transform.
-/
import Verif.Fft.InPlace
import Mathlib.Data.Int.ModEq
import Mathlib.Data.ZMod.Basic
import Mathlib.Tactic.IntervalCases

namespace Altruct.Fft

open Convolution (Mem put_self put_ne)
open Base (powT multiple)

set_option linter.unusedSectionVars false

variable {α R : Type} [CommRing α] [Monoid R]

/-! ### Specification -/

/-- The ordinary convolution: coefficient `k` of the product of two polynomials. -/
def lconv (u v : List α) (k : Nat) : α := ∑ i ∈ Finset.range (k + 1), u.getD i 0 * v.getD (k - i) 0

/-- The convolution of the kernel `u` with the cyclic list `v`. -/
def kconv (u v : List α) (k : Nat) : α :=
  ∑ i ∈ Finset.range u.length, u.getD i 0 * v.getD (((k : Int) - i) % v.length).toNat 0

/-! ### Orthogonality -/

theorem sum_pow_mul : ∀ (L : Nat) (w : α), (0 < L → w ^ 2 ^ (L - 1) = -1) → ∀ t : Nat,
    ∑ k ∈ Finset.range (2 ^ L), w ^ (k * t) = if 2 ^ L ∣ t then ((2 ^ L : Nat) : α) else 0 := by
  intro L
  induction L with
  | zero => intro w _ t; simp
  | succ L ih =>
    intro w hw t
    have hroot : w ^ 2 ^ L = -1 := hw (by omega)
    have hw2 : 0 < L → (w * w) ^ 2 ^ (L - 1) = -1 := fun hL => by
      apply root_sq
      rw [show L - 1 + 1 = L by omega]
      exact hroot
    rw [show 2 ^ (L + 1) = 2 * 2 ^ L by ring, sum_halves]
    have e1 : ∀ k, w ^ (k * t) + w ^ ((k + 2 ^ L) * t) = w ^ (k * t) * (1 + (-1) ^ t) := by
      intro k
      rw [add_mul, pow_add, pow_mul w (2 ^ L) t, hroot]
      ring
    simp only [e1]
    rw [← Finset.sum_mul]
    rcases Nat.even_or_odd t with ⟨s, rfl⟩ | ⟨s, rfl⟩
    · have e2 : ∀ k, w ^ (k * (s + s)) = (w * w) ^ (k * s) := by
        intro k
        rw [← pow_two, ← pow_mul]; congr 1; ring
      simp only [e2]
      rw [ih (w * w) hw2 s, Even.neg_one_pow ⟨s, rfl⟩, ← two_mul s]
      by_cases hd : 2 ^ L ∣ s
      · rw [if_pos hd, if_pos (Nat.mul_dvd_mul_left 2 hd)]
        push_cast; ring
      · rw [if_neg hd, if_neg (fun h => hd (Nat.dvd_of_mul_dvd_mul_left (by omega) h)), zero_mul]
    · rw [Odd.neg_one_pow ⟨s, rfl⟩, if_neg]
      · ring
      · intro h
        have : 2 ∣ 2 * s + 1 := dvd_trans (Dvd.intro _ rfl) h
        omega

theorem conv_index {n a b j : Nat} (hj : j < n) : n ∣ a + b + (n - 1) * j ↔ (a + b) % n = j := by
  have hn : 0 < n := by omega
  obtain ⟨q, rfl⟩ : ∃ q, n = q + 1 := ⟨n - 1, by omega⟩
  rw [Nat.add_sub_cancel]
  have e : a + b + q * j + j = a + b + (q + 1) * j := by ring
  constructor
  · intro h
    have h1 : (a + b + q * j) % (q + 1) = 0 := Nat.mod_eq_zero_of_dvd h
    have h2 : (a + b + q * j + j) % (q + 1) = j % (q + 1) := by
      rw [Nat.add_mod, h1, Nat.zero_add, Nat.mod_mod]
    rw [e, Nat.add_mul_mod_self_left, Nat.mod_eq_of_lt hj] at h2
    exact h2
  · intro h
    have h1 : (a + b + q * j + j) % (q + 1) = j := by
      rw [e, Nat.add_mul_mod_self_left, h]
    have h2 : (a + b + q * j + j) ≡ 0 + j [MOD q + 1] := by
      rw [Nat.ModEq, h1, Nat.zero_add, Nat.mod_eq_of_lt hj]
    exact Nat.dvd_of_mod_eq_zero (Nat.ModEq.add_right_cancel' j h2)

/-- The convolution theorem. -/
theorem dft_conv {L : Nat} {w : α} (hw : 0 < L → w ^ 2 ^ (L - 1) = -1) (f g : Nat → α) {j : Nat}
    (hj : j < 2 ^ L) :
    dft (2 ^ L) (w ^ (2 ^ L - 1)) (fun k => dft (2 ^ L) w f k * dft (2 ^ L) w g k) j =
      ((2 ^ L : Nat) : α) * cconv (2 ^ L) f g j := by
  have e1 : ∀ k, dft (2 ^ L) w f k * dft (2 ^ L) w g k * (w ^ (2 ^ L - 1)) ^ (k * j) =
      ∑ a ∈ Finset.range (2 ^ L), ∑ b ∈ Finset.range (2 ^ L),
        f a * g b * w ^ (k * (a + b + (2 ^ L - 1) * j)) := by
    intro k
    rw [dft, dft, Finset.sum_mul_sum, Finset.sum_mul]
    apply Finset.sum_congr rfl
    intro a _
    rw [Finset.sum_mul]
    apply Finset.sum_congr rfl
    intro b _
    have : w ^ (k * (a + b + (2 ^ L - 1) * j)) = w ^ (a * k) * w ^ (b * k) *
        (w ^ (2 ^ L - 1)) ^ (k * j) := by
      rw [← pow_mul, ← pow_add, ← pow_add]; congr 1; ring
    rw [this]
    ring
  rw [dft]
  simp only [e1]
  rw [Finset.sum_comm, cconv, Finset.mul_sum]
  apply Finset.sum_congr rfl
  intro a _
  rw [Finset.sum_comm, Finset.mul_sum]
  apply Finset.sum_congr rfl
  intro b _
  rw [← Finset.mul_sum, sum_pow_mul L w hw]
  by_cases h : (a + b) % 2 ^ L = j
  · rw [if_pos ((conv_index hj).mpr h), if_pos h]; ring
  · rw [if_neg (fun h' => h ((conv_index hj).mp h')), if_neg h]; ring

/-! ### `fft_cyclic_convolution` -/

theorem mulLoop_spec {r f g n : Nat} (hf : f ≠ r) (hg : g ≠ r) {F G : Nat → α} :
    ∀ (c i : Nat) (m : Mem α) (D : Nat → α), i + c = n → Rep (m r) n D → Rep (m f) n F →
    Rep (m g) n G →
    ∃ m', mulLoop r f g c i m = some m' ∧
      Rep (m' r) n (fun x => if i ≤ x then F x * G x else D x) ∧ ∀ a, a ≠ r → m' a = m a := by
  intro c
  induction c with
  | zero =>
    intro i m D hi hr _ _
    exact ⟨m, rfl, hr.congr (fun x hx => by rw [if_neg (by omega)]), fun _ _ => rfl⟩
  | succ c ih =>
    intro i m D hi hr hF hG
    rw [mulLoop, hF.rd (by omega)]
    simp only [Option.bind_eq_bind, Option.bind_some]
    rw [hG.rd (by omega)]
    simp only [Option.bind_some]
    rw [hr.wr (by omega)]
    simp only [Option.bind_some]
    obtain ⟨m', e, h1, h2⟩ := ih (i + 1) (m.put r ((m r).set i (F i * G i))) _ (by omega)
      (by rw [put_self]; exact hr.set i _) (by rw [put_ne _ hf]; exact hF) (by rw [put_ne _ hg]; exact hG)
    refine ⟨m', e, h1.congr (fun x _ => ?_), fun a ha => by rw [h2 a ha, put_ne _ ha]⟩
    by_cases hx : x = i
    · subst hx; rw [if_neg (by omega), if_pos le_rfl, Function.update_self]
    · rw [Function.update_of_ne hx]
      split_ifs <;> first | rfl | (exfalso; omega)

theorem scaleLoop_spec {r n : Nat} (s : α) :
    ∀ (c i : Nat) (m : Mem α) (D : Nat → α), i + c = n → Rep (m r) n D →
    ∃ m', scaleLoop r s c i m = some m' ∧
      Rep (m' r) n (fun x => if i ≤ x then D x * s else D x) ∧ ∀ a, a ≠ r → m' a = m a := by
  intro c
  induction c with
  | zero =>
    intro i m D hi hr
    exact ⟨m, rfl, hr.congr (fun x hx => by rw [if_neg (by omega)]), fun _ _ => rfl⟩
  | succ c ih =>
    intro i m D hi hr
    rw [scaleLoop, hr.rd (by omega)]
    simp only [Option.bind_eq_bind, Option.bind_some]
    rw [hr.wr (by omega)]
    simp only [Option.bind_some]
    obtain ⟨m', e, h1, h2⟩ := ih (i + 1) (m.put r ((m r).set i (D i * s))) _ (by omega)
      (by rw [put_self]; exact hr.set i _)
    refine ⟨m', e, h1.congr (fun x _ => ?_), fun a ha => by rw [h2 a ha, put_ne _ ha]⟩
    by_cases hx : x = i
    · subst hx; rw [if_neg (by omega), if_pos le_rfl, Function.update_self]
    · rw [Function.update_of_ne hx]
      split_ifs <;> first | rfl | (exfalso; omega)

/-- `fft_cyclic_convolution` leaves the cyclic convolution in `dataR`. -/
theorem C42_cyclic (φ : R →* α) {dv : α → α → α} {dataR data1 data2 L M : Nat} {rootBase : R}
    (h12 : data1 ≠ data2) (hR1 : data1 ≠ dataR) (hR2 : data2 ≠ dataR) (hLM : L ≤ M)
    (hroot : 0 < M → φ rootBase ^ 2 ^ (M - 1) = -1)
    (hdv : dv 1 ((2 ^ L : Nat) : α) * ((2 ^ L : Nat) : α) = 1) {m : Mem α} {F G : Nat → α}
    (hr : (m dataR).length = 2 ^ L) (hF : Rep (m data1) (2 ^ L) F) (hG : Rep (m data2) (2 ^ L) G) :
    ∃ m', cyclic φ dv dataR data1 data2 (2 ^ L) rootBase (2 ^ M) m = some m' ∧
      Rep (m' dataR) (2 ^ L) (cconv (2 ^ L) F G) := by
  have hpos := Nat.two_pow_pos L
  have hdiv : 2 ^ M / 2 ^ L = 2 ^ (M - L) := Nat.pow_div hLM (by omega)
  have hw : 0 < L → (φ rootBase ^ 2 ^ (M - L)) ^ 2 ^ (L - 1) = -1 := by
    intro hL
    rw [← pow_mul, ← pow_add, show M - L + (L - 1) = M - 1 by omega]
    exact hroot (by omega)
  have hiw : 0 < L → ((φ rootBase ^ 2 ^ (M - L)) ^ (2 ^ L - 1)) ^ 2 ^ (L - 1) = -1 := by
    intro hL
    rw [← pow_mul, Nat.mul_comm, pow_mul, hw hL]
    apply Odd.neg_one_pow
    obtain ⟨q, rfl⟩ : ∃ q, L = q + 1 := ⟨L - 1, by omega⟩
    have := Nat.two_pow_pos q
    refine ⟨2 ^ q - 1, ?_⟩
    rw [pow_succ]
    omega
  have e0 : powT rootBase ((2 ^ M / 2 ^ L : Nat) : Int) = rootBase ^ 2 ^ (M - L) := by
    rw [hdiv, Base.C04_powT]
  have e0' : powT (rootBase ^ 2 ^ (M - L)) ((2 ^ L - 1 : Nat) : Int) =
      (rootBase ^ 2 ^ (M - L)) ^ (2 ^ L - 1) := Base.C04_powT _ _
  obtain ⟨m1, e1, h1, k1⟩ := C42_fft_rec φ hR1 (root := rootBase ^ 2 ^ (M - L)) (L := L)
    (by rw [map_pow]; exact hw) hr hF
  obtain ⟨m2, e2, h2, k2⟩ := C42_fft_rec φ (Ne.symm h12) (root := rootBase ^ 2 ^ (M - L)) (L := L)
    (m := m1) (by rw [map_pow]; exact hw) (by rw [k1 _ hR1]; exact hF.len) (by rw [k1 _ hR2]; exact hG)
  obtain ⟨m3, e3, h3, k3⟩ := mulLoop_spec (r := data2) (f := dataR) (g := data1) (Ne.symm hR2) h12
    (2 ^ L) 0 m2 G (by omega) (by rw [k2 _ (Ne.symm h12), k1 _ hR2]; exact hG)
    (by rw [k2 _ (Ne.symm hR1)]; exact h1) h2
  obtain ⟨m4, e4, h4, k4⟩ := C42_fft_rec φ hR2
    (root := (rootBase ^ 2 ^ (M - L)) ^ (2 ^ L - 1)) (L := L) (m := m3)
    (by rw [map_pow, map_pow]; exact hiw)
    (by rw [k3 _ (Ne.symm hR2), k2 _ (Ne.symm hR1)]; exact h1.len) h3
  obtain ⟨m5, e5, h5, -⟩ := scaleLoop_spec (r := dataR) (dv (φ 1) ((2 ^ L : Nat) : α)) (2 ^ L) 0 m4 _
    (by omega) h4
  refine ⟨m5, ?_, h5.congr (fun x hx => ?_)⟩
  · simp only [cyclic, e0, e0', e1, e2, e3, e4, Option.bind_eq_bind, Option.bind_some]
    exact e5
  · simp only [Nat.zero_le, if_true, map_pow, map_one]
    rw [dft_conv hw F G hx]
    linear_combination cconv (2 ^ L) F G x * hdv

/-! ### `convolution` -/

theorem powLen_spec {n M : Nat} (hn : n ≤ 2 ^ M) : ∀ (c a : Nat), a + c = M →
    ∃ L, powLen n (2 ^ a) = 2 ^ L ∧ L ≤ M ∧ n ≤ 2 ^ L := by
  intro c
  induction c with
  | zero =>
    intro a ha
    have : a = M := by omega
    subst this
    exact ⟨a, by rw [powLen, dif_neg (by omega)], le_rfl, hn⟩
  | succ c ih =>
    intro a ha
    rw [powLen]
    by_cases h : 2 ^ a < n ∧ 0 < 2 ^ a
    · rw [dif_pos h, ← pow_succ]
      exact ih (a + 1) (by omega)
    · rw [dif_neg h]
      have := Nat.two_pow_pos a
      exact ⟨a, rfl, by omega, by omega⟩

theorem resize_rep (v : List α) (n : Nat) : Rep (resize v n) n (fun i => v.getD i 0) := by
  refine ⟨by rw [resize]; simp; omega, fun i hi => ?_⟩
  rw [resize, List.getElem?_append]
  by_cases h : i < v.length
  · rw [if_pos (by simp; omega), List.getElem?_take, if_pos hi, List.getD_eq_getElem?_getD,
      List.getElem?_eq_getElem h]
    rfl
  · rw [if_neg (by simp; omega), List.getElem?_replicate, if_pos (by simp; omega),
      List.getD_eq_getElem?_getD, List.getElem?_eq_none (by omega)]
    rfl

theorem resize_of_rep {v : List α} {l n : Nat} {g : Nat → α} (h : Rep v l g) (hn : n ≤ l) :
    Rep (resize v n) n g := (resize_rep v n).congr (fun i hi => by
      rw [List.getD_eq_getElem?_getD, h.get i (by omega)]; rfl)

theorem getD_zero_of_le {v : List α} {i : Nat} (h : v.length ≤ i) : v.getD i 0 = 0 := by
  rw [List.getD_eq_getElem?_getD, List.getElem?_eq_none h]; rfl

theorem cconv_of_short {u v : List α} {l k : Nat} (hl : u.length + v.length - 1 ≤ l) (hk : k < l) :
    cconv l (fun i => u.getD i 0) (fun i => v.getD i 0) k = lconv u v k := by
  have h1 : ∀ i j, i < l → j < l → (if (i + j) % l = k then u.getD i 0 * v.getD j 0 else 0) =
      if j = k - i then (if i ≤ k then u.getD i 0 * v.getD (k - i) 0 else 0) else 0 := by
    intro i j hi hj
    by_cases hz : i < u.length ∧ j < v.length
    · rw [Nat.mod_eq_of_lt (by omega)]
      by_cases hij : i + j = k
      · rw [if_pos hij, if_pos (by omega), if_pos (by omega), show k - i = j by omega]
      · rw [if_neg hij]
        by_cases h2 : j = k - i
        · rw [if_pos h2, if_neg (by omega)]
        · rw [if_neg h2]
    · have h0 : u.getD i 0 * v.getD j 0 = 0 := by
        by_cases h3 : i < u.length
        · rw [getD_zero_of_le (v := v) (i := j) (by omega), mul_zero]
        · rw [getD_zero_of_le (v := u) (i := i) (by omega), zero_mul]
      rw [h0, ite_self]
      by_cases h2 : j = k - i
      · rw [if_pos h2, ← h2, h0, ite_self]
      · rw [if_neg h2]
  rw [cconv, lconv]
  have h2 : ∀ i ∈ Finset.range l, (∑ j ∈ Finset.range l,
      if (i + j) % l = k then u.getD i 0 * v.getD j 0 else 0) =
      if i ≤ k then u.getD i 0 * v.getD (k - i) 0 else 0 := by
    intro i hi
    rw [Finset.mem_range] at hi
    rw [Finset.sum_congr rfl (fun j hj => h1 i j hi (Finset.mem_range.mp hj)), Finset.sum_ite_eq',
      if_pos (Finset.mem_range.mpr (by omega))]
  rw [Finset.sum_congr rfl h2]
  have h3 : ∑ i ∈ Finset.range (k + 1), (if i ≤ k then u.getD i 0 * v.getD (k - i) 0 else 0) =
      ∑ i ∈ Finset.range l, (if i ≤ k then u.getD i 0 * v.getD (k - i) 0 else 0) := by
    apply Finset.sum_subset
    · intro i hi
      rw [Finset.mem_range] at hi ⊢
      omega
    · intro i _ hi
      rw [Finset.mem_range] at hi
      rw [if_neg (by omega)]
  rw [← h3]
  apply Finset.sum_congr rfl
  intro i hi
  rw [Finset.mem_range] at hi
  rw [if_pos (by omega)]

/-- `convolution` returns the ordinary convolution, `u.size() + v.size() - 1` elements. -/
theorem C42_convolution (φ : R →* α) {dv : α → α → α} {M : Nat} {rootBase : R}
    (hroot : 0 < M → φ rootBase ^ 2 ^ (M - 1) = -1)
    (hdv : ∀ L, L ≤ M → dv 1 ((2 ^ L : Nat) : α) * ((2 ^ L : Nat) : α) = 1)
    {u v : List α} (hne : 0 < u.length + v.length) (hM : u.length + v.length - 1 ≤ 2 ^ M) :
    convolution φ dv u v rootBase (2 ^ M) =
      some ((List.range (u.length + v.length - 1)).map (lconv u v)) := by
  obtain ⟨L, hL, hLM, hn⟩ := powLen_spec hM M 0 (by omega)
  rw [pow_zero] at hL
  obtain ⟨m', e, h⟩ := C42_cyclic φ (dataR := 0) (data1 := 1) (data2 := 2) (L := L) (by omega)
    (by omega) (by omega) hLM hroot (hdv L hLM)
    (m := mem3 (resize [] (2 ^ L)) (resize u (2 ^ L)) (resize v (2 ^ L)))
    (show (resize [] (2 ^ L)).length = 2 ^ L from (resize_rep [] _).len)
    (show Rep (resize u (2 ^ L)) (2 ^ L) _ from resize_rep u _)
    (show Rep (resize v (2 ^ L)) (2 ^ L) _ from resize_rep v _)
  rw [convolution, if_neg (by omega)]
  simp only [Option.bind_eq_bind, hL, e, Option.bind_some]
  have h2 := (resize_of_rep h hn).congr (g' := lconv u v) (fun k hk => cconv_of_short hn (by omega))
  rw [h2.eq_map]

/-! ### `cyclic_convolution` -/

theorem repeatLoop_spec {vs N : Nat} (hvs : 0 < vs) (V : Nat → α) :
    ∀ (c i : Nat) (v : List α) (D : Nat → α), vs ≤ i → i + c ≤ N →
    (∀ x, x < i → D x = V (x % vs)) → Rep v N D →
    ∃ v' D', repeatLoop vs c i v = some v' ∧ Rep v' N D' ∧ (∀ x, x < i + c → D' x = V (x % vs)) := by
  intro c
  induction c with
  | zero =>
    intro i v D _ hi hD hv
    exact ⟨v, D, rfl, hv, hD⟩
  | succ c ih =>
    intro i v D hvi hi hD hv
    rw [repeatLoop, hv.rd (by omega)]
    simp only [Option.bind_eq_bind, Option.bind_some]
    rw [hv.wr (by omega)]
    simp only [Option.bind_some]
    obtain ⟨v', D', e, h1, h2⟩ := ih (i + 1) _ (Function.update D i (D (i - vs))) (by omega)
      (by omega) (fun x hx => by
      by_cases hxi : x = i
      · subst hxi
        rw [Function.update_self, hD _ (by omega)]
        congr 1
        exact (Nat.mod_eq_sub_mod hvi).symm
      · rw [Function.update_of_ne hxi, hD x (by omega)]) (hv.set i _)
    exact ⟨v', D', e, h1, fun x hx => h2 x (by omega)⟩

theorem wrapLoop_spec {l vvs : Nat} :
    ∀ (c i : Nat) (v : List α) (D : Nat → α), 0 < i → i + c ≤ vvs + 1 → vvs + (i + c) ≤ l + 1 →
    Rep v l D →
    ∃ v', wrapLoop l vvs c i v = some v' ∧ Rep v' l (fun x =>
      if l < x + (i + c) ∧ x + i ≤ l then D (x + vvs - l) else D x) := by
  intro c
  induction c with
  | zero =>
    intro i v D _ _ _ hv
    exact ⟨v, rfl, hv.congr (fun x _ => by rw [if_neg (by omega)])⟩
  | succ c ih =>
    intro i v D hi h1 h2 hv
    rw [wrapLoop, hv.rd (by omega)]
    simp only [Option.bind_eq_bind, Option.bind_some]
    rw [hv.wr (by omega)]
    simp only [Option.bind_some]
    obtain ⟨v', e, h3⟩ := ih (i + 1) _ _ (by omega) (by omega) (by omega) (hv.set (l - i) _)
    refine ⟨v', e, h3.congr (fun x hx => ?_)⟩
    by_cases c1 : l < x + (i + 1 + c) ∧ x + (i + 1) ≤ l
    · rw [if_pos c1, if_pos (by omega), Function.update_of_ne (by omega)]
    · rw [if_neg c1]
      by_cases c2 : x = l - i
      · rw [c2, Function.update_self, if_pos (by omega)]
        congr 1
        omega
      · rw [Function.update_of_ne c2, if_neg (by omega)]

theorem tailLoop_spec {vs us N : Nat} (hvs : 0 < vs) (hN : vs + us - 1 ≤ N) (D : Nat → α) :
    ∀ (c i : Nat) (r : List α), 0 < i → i + c = us →
    Rep r N (fun x => if vs + us - 1 < x + i ∧ x < vs + us - 1 then D (x - vs) else D x) →
    ∃ r', tailLoop (vs + us - 1) us c i r = some r' ∧ Rep r' N (fun x =>
      if vs ≤ x ∧ x < vs + us - 1 then D (x - vs) else D x) := by
  intro c
  induction c with
  | zero =>
    intro i r hi0 hi hr
    refine ⟨r, rfl, hr.congr (fun x hx => ?_)⟩
    split_ifs <;> first | rfl | (exfalso; omega)
  | succ c ih =>
    intro i r hi0 hi hr
    have e1 := hr.rd (show us - 1 - i < N by omega)
    rw [if_neg (by omega)] at e1
    rw [tailLoop, e1]
    simp only [Option.bind_eq_bind, Option.bind_some]
    rw [hr.wr (by omega)]
    simp only [Option.bind_some]
    refine ih (i + 1) _ (by omega) (by omega) ((hr.set _ _).congr (fun x hx => ?_))
    by_cases c1 : x = vs + us - 1 - i
    · rw [c1, Function.update_self, if_pos (by omega)]
      congr 1
      omega
    · rw [Function.update_of_ne c1]
      split_ifs <;> first | rfl | (exfalso; omega)

theorem mod_of_add_mul {a : Int} {b vs : Nat} (q : Int) (h : (b : Int) = a + q * vs) :
    (a % vs).toNat = b % vs := by
  have : a % (vs : Int) = ((b % vs : Nat) : Int) := by
    push_cast
    rw [h, Int.add_mul_emod_self_right]
  rw [this, Int.toNat_natCast]

theorem cconv_cyclic {u v : List α} {l vvs k : Nat} {D : Nat → α}
    (hdvd : v.length ∣ vvs) (hu : u.length ≤ vvs) (hl : vvs + u.length - 1 ≤ l) (hk : k < vvs)
    (hul : 0 < u.length)
    (hD1 : ∀ x, x < vvs → D x = v.getD (x % v.length) 0)
    (hD2 : ∀ x, 0 < x → x < u.length → D (l - x) = v.getD ((vvs - x) % v.length) 0) :
    cconv l (fun i => u.getD i 0) D k = kconv u v k := by
  obtain ⟨q, hq⟩ := hdvd
  have key : ∀ i, i < u.length → (∑ j ∈ Finset.range l, if (i + j) % l = k then u.getD i 0 * D j
      else 0) = u.getD i 0 * v.getD (((k : Int) - i) % v.length).toNat 0 := by
    intro i hi
    by_cases hik : i ≤ k
    · rw [Finset.sum_eq_single (k - i)]
      · rw [if_pos (by rw [show i + (k - i) = k by omega, Nat.mod_eq_of_lt (by omega)]),
          hD1 _ (by omega), mod_of_add_mul (b := k - i) 0 (by omega)]
      · intro j hj hne
        rw [Finset.mem_range] at hj
        rw [if_neg]
        intro h
        by_cases hlt : i + j < l
        · rw [Nat.mod_eq_of_lt hlt] at h; omega
        · rw [Nat.mod_eq_sub_mod (by omega), Nat.mod_eq_of_lt (by omega)] at h; omega
      · intro h
        exact absurd (Finset.mem_range.mpr (by omega)) h
    · rw [Finset.sum_eq_single (l - (i - k))]
      · rw [if_pos (by rw [show i + (l - (i - k)) = k + l by omega, Nat.add_mod_right,
          Nat.mod_eq_of_lt (by omega)]), hD2 _ (by omega) (by omega),
          mod_of_add_mul (b := vvs - (i - k)) q (by
            have : ((v.length * q : Nat) : Int) = (q : Int) * (v.length : Int) := by push_cast; ring
            rw [← this, ← hq]
            omega)]
      · intro j hj hne
        rw [Finset.mem_range] at hj
        rw [if_neg]
        intro h
        by_cases hlt : i + j < l
        · rw [Nat.mod_eq_of_lt hlt] at h; omega
        · rw [Nat.mod_eq_sub_mod (by omega), Nat.mod_eq_of_lt (by omega)] at h; omega
      · intro h
        exact absurd (Finset.mem_range.mpr (by omega)) h
  rw [cconv, kconv]
  have h3 : ∑ i ∈ Finset.range u.length, (∑ j ∈ Finset.range l,
      if (i + j) % l = k then u.getD i 0 * D j else 0) =
      ∑ i ∈ Finset.range l, (∑ j ∈ Finset.range l,
      if (i + j) % l = k then u.getD i 0 * D j else 0) := by
    apply Finset.sum_subset
    · intro i hi
      rw [Finset.mem_range] at hi ⊢
      omega
    · intro i _ hi
      rw [Finset.mem_range] at hi
      apply Finset.sum_eq_zero
      intro j _
      rw [getD_zero_of_le (v := u) (i := i) (by omega), zero_mul, ite_self]
  rw [← h3]
  exact Finset.sum_congr rfl (fun i hi => key i (Finset.mem_range.mp hi))

/-- `cyclic_convolution` returns the convolution of the kernel with the periodically continued list,
`u.size() + v.size() - 1` elements. -/
theorem C42_cyclic_convolution (φ : R →* α) {dv : α → α → α} {M : Nat} {rootBase : R}
    (hroot : 0 < M → φ rootBase ^ 2 ^ (M - 1) = -1)
    (hdv : ∀ L, L ≤ M → dv 1 ((2 ^ L : Nat) : α) * ((2 ^ L : Nat) : α) = 1)
    {u v : List α} (hu : u ≠ []) (hv : v ≠ [])
    (hM : (multiple (v.length : Int) (u.length : Int)).toNat + u.length - 1 ≤ 2 ^ M) :
    cyclicConvolution φ dv u v rootBase (2 ^ M) =
      some ((List.range (u.length + v.length - 1)).map (kconv u v)) := by
  have hul : 0 < u.length := List.length_pos_iff.mpr hu
  have hvl : 0 < v.length := List.length_pos_iff.mpr hv
  obtain ⟨c1, c2, c3⟩ := Base.C05_multiple (v.length : Int) (u.length : Int) (by omega)
  obtain ⟨vvs, hvvs⟩ : ∃ vvs : Nat, multiple (v.length : Int) (u.length : Int) = vvs :=
    ⟨_, (Int.toNat_of_nonneg (by omega)).symm⟩
  rw [hvvs] at c1 c2
  have hdvd : v.length ∣ vvs := by exact_mod_cast c1
  have hle : v.length ≤ vvs := Nat.le_of_dvd (by omega) hdvd
  have hule : u.length ≤ vvs := by exact_mod_cast c2
  rw [hvvs, Int.toNat_natCast] at hM
  obtain ⟨L, hL, hLM, hn⟩ := powLen_spec hM M 0 (by omega)
  rw [pow_zero] at hL
  obtain ⟨v1, D1, e1, h1, k1⟩ := repeatLoop_spec (N := 2 ^ L) hvl (fun i => v.getD i 0)
    (vvs - v.length) v.length (resize v (2 ^ L)) _ le_rfl (by omega)
    (fun x hx => by rw [Nat.mod_eq_of_lt hx]) (resize_rep v (2 ^ L))
  obtain ⟨v2, e2, h2⟩ := wrapLoop_spec (l := 2 ^ L) (vvs := vvs) (u.length - 1) 1 v1 D1 (by omega)
    (by omega) (by omega) h1
  obtain ⟨m', e3, h3⟩ := C42_cyclic φ (dataR := 0) (data1 := 1) (data2 := 2) (L := L) (by omega)
    (by omega) (by omega) hLM hroot (hdv L hLM)
    (m := mem3 (resize [] (2 ^ L)) (resize u (2 ^ L)) v2)
    (show (resize [] (2 ^ L)).length = 2 ^ L from (resize_rep [] _).len)
    (show Rep (resize u (2 ^ L)) (2 ^ L) _ from resize_rep u _)
    (show Rep v2 (2 ^ L) _ from h2)
  obtain ⟨r', e4, h4⟩ := tailLoop_spec (vs := v.length) (us := u.length) (N := 2 ^ L) hvl (by omega) _
    (u.length - 1) 1 (m' 0) (by omega) (by omega) (h3.congr (fun x _ => by rw [if_neg (by omega)]))
  rw [cyclicConvolution, if_neg (by omega)]
  simp only [Option.bind_eq_bind, hvvs, Int.toNat_natCast, hL, e1, e2, e3, e4, Option.bind_some]
  have hval : ∀ k, k < vvs → cconv (2 ^ L) (fun i => u.getD i 0) (fun x =>
      if 2 ^ L < x + (1 + (u.length - 1)) ∧ x + 1 ≤ 2 ^ L then D1 (x + vvs - 2 ^ L) else D1 x) k =
      kconv u v k := by
    intro k hk
    apply cconv_cyclic hdvd hule hn hk hul
    · intro x hx
      rw [if_neg (by omega), k1 x (by omega)]
    · intro x hx0 hx
      rw [if_pos (by omega), k1 _ (by omega)]
      congr 2
      omega
  have hper : ∀ k, kconv u v (k + v.length) = kconv u v k := by
    intro k
    rw [kconv, kconv]
    apply Finset.sum_congr rfl
    intro i _
    congr 3
    push_cast
    rw [show (k : Int) + v.length - i = (k - i) + 1 * v.length by ring, Int.add_mul_emod_self_right]
  have h5 := (resize_of_rep h4 (n := v.length + u.length - 1) (by omega)).congr (g' := kconv u v)
    (fun k hk => by
      by_cases hkv : v.length ≤ k
      · rw [if_pos (by omega), hval _ (by omega)]
        have := hper (k - v.length)
        rw [show k - v.length + v.length = k by omega] at this
        exact this.symm
      · rw [if_neg (by omega), hval _ (by omega)])
  rw [h5.eq_map, Nat.add_comm v.length]

/-! ### Examples -/

/-- Integers modulo 17, where 2 has order 8 and 9 is the inverse of 2. -/
example : (2 : ZMod 17) ^ 2 ^ (3 - 1) = -1 := by decide +kernel

/-- Division modulo 17 for the examples. -/
def div17 (a b : ZMod 17) : ZMod 17 := a * b ^ 15

example : ∀ L, L ≤ 3 → div17 1 ((2 ^ L : Nat) : ZMod 17) * ((2 ^ L : Nat) : ZMod 17) = 1 := by
  intro L hL
  interval_cases L <;> decide +kernel

example : fft (α := ZMod 17) (R := ZMod 17) id 4 4 [1, 2, 3, 4] = some [10, 7, 15, 6] ∧
    (fftRec (α := ZMod 17) (R := ZMod 17) id 0 1 4 4 1 0 0 (mem3 [0, 0, 0, 0] [1, 2, 3, 4] [])).map
      (fun m => m 0) = some [10, 7, 15, 6] ∧ (4 : ZMod 17) ^ 2 ^ (2 - 1) = -1 ∧
    (List.range 4).map (dft 4 (4 : ZMod 17) (fun j => [1, 2, 3, 4].getD j 0)) = [10, 7, 15, 6] := by
  decide +kernel

/-- The arrays of `fft_rec` must differ: transforming an array onto itself gives a wrong result. -/
example : (fftRec (α := ZMod 17) (R := ZMod 17) id 0 0 4 4 1 0 0 (mem3 [1, 2, 3, 4] [] [])).map
    (fun m => m 0) ≠ some [10, 7, 15, 6] := by decide +kernel

example : convolution (α := ZMod 17) (R := ZMod 17) id div17 [1, 2, 3] [4, 5] 2 8 =
    some [4, 13, 5, 15] := by decide +kernel

example : cyclicConvolution (α := ZMod 17) (R := ZMod 17) id div17 [1, 2, 3] [4, 5] 2 8 =
    some [9, 11, 9, 11] := by decide +kernel

end Altruct.Fft
