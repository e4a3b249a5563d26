/-
C121: the multiplication of polynomials with `modulo` coefficients.
-/
import Verif.PolyMod.Conv
import Mathlib.Data.Nat.ModEq
import Mathlib.Tactic.IntervalCases
import Mathlib.Analysis.SpecialFunctions.Complex.Circle

namespace Altruct.PolyMod

open Base (powT)
open Fft (powLen fft dft cconv)
open Polynom (at' rd_at MulOk ImplOk cv MulFn mulLong karatsuba mulCore)
open Modulo (addW subW mulW)

variable {β : Type} [CommRing β]

/-! ### The two primes -/

/-- `x^(2^k) mod m` -/
def sqMod (m : Nat) : Nat → Nat → Nat
  | 0, x => x
  | k + 1, x => sqMod m k (x * x % m)

theorem sqMod_spec (m : Nat) : ∀ k x, ((sqMod m k x : Nat) : ZMod m) = ((x : Nat) : ZMod m) ^ 2 ^ k
  | 0, x => by rw [sqMod, pow_zero, pow_one]
  | k + 1, x => by
    rw [sqMod, sqMod_spec m k, ZMod.natCast_mod, Nat.cast_mul, ← pow_two, ← pow_mul, pow_succ, Nat.mul_comm]

theorem root1 : ((5 : Nat) : ZMod P1) ^ (3 * 2 ^ 29) = -1 := by
  rw [pow_mul, ← Nat.cast_pow, ← sqMod_spec, show sqMod P1 29 (5 ^ 3) = P1 - 1 by decide +kernel, Nat.cast_sub (by decide),
    ZMod.natCast_self, Nat.cast_one, zero_sub]

theorem root2 : ((3 : Nat) : ZMod P2) ^ (13 * 2 ^ 27) = -1 := by
  rw [pow_mul, ← Nat.cast_pow, ← sqMod_spec, show sqMod P2 27 (3 ^ 13) = P2 - 1 by decide +kernel, Nat.cast_sub (by decide),
    ZMod.natCast_self, Nat.cast_one, zero_sub]

/-- A root of order `2^L` from a primitive root. -/
theorem rootP {P prim q e : Nat} (hP : P - 1 = q * 2 ^ (e + 1)) (h : ((prim : Nat) : ZMod P) ^ (q * 2 ^ e) = -1) {L : Nat}
    (hL : L ≤ e + 1) : 0 < L → (((prim : Nat) : ZMod P) ^ ((P - 1) / 2 ^ L)) ^ 2 ^ (L - 1) = -1 := by
  intro h0
  rw [← pow_mul, ← h, hP]
  congr 1
  rw [show (2 : Nat) ^ (e + 1) = 2 ^ (e + 1 - L) * 2 ^ L by rw [← pow_add]; congr 1; omega, ← Nat.mul_assoc,
    Nat.mul_div_cancel _ (Nat.two_pow_pos L), Nat.mul_assoc, ← pow_add]
  congr 2; omega

/-- The convolutions modulo one prime. -/
theorem modPHilo_spec {M P prim q e : Nat} (hP : P - 1 = q * 2 ^ (e + 1)) (hr : ((prim : Nat) : ZMod P) ^ (q * 2 ^ e) = -1)
    (h2P : Nat.Coprime 2 P) {L : Nat} (hLe : L ≤ e + 1) {p1 p2 : List (ZMod M)} {l1 l2 : Nat}
    (h1 : l1 < p1.length) (h2 : l2 < p2.length) (hL : l1 + l2 < 2 ^ L) :
    ∃ t, modPHilo P prim p1 l1 p2 l2 (2 ^ L) = some t ∧
      Rep t.1 (2 ^ L) (fun j => ((nconv (fun i => cf p1 l1 i &&& 0xFFFF) (fun i => cf p2 l2 i &&& 0xFFFF) j : Nat) : ZMod P)) ∧
      Rep t.2.1 (2 ^ L) (fun j => ((nconv (fun i => cf p1 l1 i &&& 0xFFFF) (fun i => cf p2 l2 i >>> 16) j +
        nconv (fun i => cf p2 l2 i &&& 0xFFFF) (fun i => cf p1 l1 i >>> 16) j : Nat) : ZMod P)) ∧
      Rep t.2.2 (2 ^ L) (fun j => ((nconv (fun i => cf p1 l1 i >>> 16) (fun i => cf p2 l2 i >>> 16) j : Nat) : ZMod P)) := by
  obtain ⟨t, e1, r1, r2, r3⟩ := hilo_spec (sc := fun x => x * ((2 ^ L : Nat) : ZMod P)⁻¹) (fun x => rfl) (rootP hP hr hLe) rfl h1 h2 hL
  have hinv : ((2 ^ L : Nat) : ZMod P) * ((2 ^ L : Nat) : ZMod P)⁻¹ = 1 :=
    ZMod.coe_mul_inv_eq_one _ (Nat.Coprime.pow_left L h2P)
  refine ⟨t, ?_, r1.congr fun j _ => by rw [hinv, mul_one], r2.congr fun j _ => by rw [hinv, mul_one],
    r3.congr fun j _ => by rw [hinv, mul_one]⟩
  rw [modPHilo, Base.C04_powT, Base.C04_powT]
  exact e1

/-! ### Chinese remainders -/

/-- Adding modulo `PP` with 64-bit words although the sum may not fit. -/
theorem wrapAdd {x y PP k : Nat} (hx : x < PP) (hy : y < PP) (hPP : PP < 2 ^ 64) (hm : (x + y) % PP = k) :
    (if x < subW 64 PP y then addW 64 x y else subW 64 (addW 64 x y) PP) = k := by
  have e1 : subW 64 PP y = PP - y := by
    rw [subW, show PP + (2 ^ 64 - y) = (PP - y) + 2 ^ 64 by omega, Nat.add_mod_right, Nat.mod_eq_of_lt (by omega)]
  rw [e1]
  split_ifs with h
  · rw [Nat.mod_eq_of_lt (by omega)] at hm
    rw [addW, Nat.mod_eq_of_lt (by omega), hm]
  · rw [Nat.mod_eq_sub_mod (by omega), Nat.mod_eq_of_lt (by omega)] at hm
    rw [subW, addW, Nat.mod_add_mod, show x + y + (2 ^ 64 - PP) = k + 2 ^ 64 by omega, Nat.add_mod_right, Nat.mod_eq_of_lt (by omega)]

theorem crt_spec {k : Nat} (hk : k < P1 * P2) : crt ((k : Nat) : ZMod P1) ((k : Nat) : ZMod P2) = k := by
  have : NeZero P1 := ⟨by decide⟩
  have : NeZero P2 := ⟨by decide⟩
  rw [crt]
  generalize ha : ((-12 : ZMod P1) * ((k : Nat) : ZMod P1)).val = a
  generalize hb : ((13 : ZMod P2) * ((k : Nat) : ZMod P2)).val = b
  have hal : a < P1 := ha ▸ ZMod.val_lt _
  have hbl : b < P2 := hb ▸ ZMod.val_lt _
  have hac : ((a : Nat) : ZMod P1) = -12 * ((k : Nat) : ZMod P1) := by rw [← ha, ZMod.natCast_zmod_val]
  have hbc : ((b : Nat) : ZMod P2) = 13 * ((k : Nat) : ZMod P2) := by rw [← hb, ZMod.natCast_zmod_val]
  have i1 : ((P2 * (P1 - 12) : Nat) : ZMod P1) = 1 := by
    rw [← ZMod.natCast_mod, show P2 * (P1 - 12) % P1 = 1 by decide +kernel, Nat.cast_one]
  have i2 : ((P1 * 13 : Nat) : ZMod P2) = 1 := by
    rw [← ZMod.natCast_mod, show P1 * 13 % P2 = 1 by decide +kernel, Nat.cast_one]
  have j1 : (P2 * a + P1 * b) ≡ k [MOD P1] := by
    rw [← ZMod.natCast_eq_natCast_iff]
    push_cast
    rw [hac, ZMod.natCast_self, zero_mul, add_zero]
    rw [Nat.cast_mul, Nat.cast_sub (by decide), ZMod.natCast_self, zero_sub] at i1
    rw [← mul_assoc]
    have : ((P2 : Nat) : ZMod P1) * -12 = 1 := by exact_mod_cast i1
    rw [this, one_mul]
  have j2 : (P2 * a + P1 * b) ≡ k [MOD P2] := by
    rw [← ZMod.natCast_eq_natCast_iff]
    push_cast
    rw [hbc, ZMod.natCast_self, zero_mul, zero_add]
    rw [Nat.cast_mul] at i2
    rw [← mul_assoc]
    have : ((P1 : Nat) : ZMod P2) * 13 = 1 := by exact_mod_cast i2
    rw [this, one_mul]
  have hj : (P2 * a + P1 * b) ≡ k [MOD P1 * P2] :=
    (Nat.modEq_and_modEq_iff_modEq_mul (show Nat.Coprime P1 P2 by decide +kernel)).mp ⟨j1, j2⟩
  have hmod : (P2 * a + P1 * b) % (P1 * P2) = k := by rw [hj, Nat.mod_eq_of_lt hk]
  have hPP : P1 * P2 < 2 ^ 64 := by decide +kernel
  have hx : P2 * a < P1 * P2 := by rw [Nat.mul_comm P1]; exact (Nat.mul_lt_mul_left (show 0 < P2 by decide)).mpr hal
  have hy : P1 * b < P1 * P2 := (Nat.mul_lt_mul_left (show 0 < P1 by decide)).mpr hbl
  rw [mulW, mulW, mulW, Nat.mod_eq_of_lt hPP, Nat.mod_eq_of_lt (hx.trans hPP), Nat.mod_eq_of_lt (hy.trans hPP)]
  exact wrapAdd hx hy hPP hmod

/-! ### `_mul_fft_crt` -/

theorem shr16_le {x : Nat} (h : x < 2 ^ 32) : x >>> 16 ≤ 2 ^ 16 - 1 := by
  rw [Nat.shiftRight_eq_div_pow]; omega

theorem and16_le (x : Nat) : x &&& 0xFFFF ≤ 2 ^ 16 - 1 := by
  rw [show (0xFFFF : Nat) = 2 ^ 16 - 1 by norm_num, and_mod]; omega

/-- **C121**: `_mul_fft_crt` computes the product, for every modulus below `2^32` and all degrees with
`l1 + l2 < 2^28`, whatever the aliasing of the arrays and the truncation. -/
theorem C121_crt {M : Nat} [NeZero M] (hM : M < 2 ^ 32) {l1 l2 : Nat} (hl : l1 + l2 < 2 ^ 28) :
    ImplOk (α := ZMod M) mulFftCrt l1 l2 := by
  intro pr lr s1 s2 _ _ hr12 hpr hs1 hs2
  obtain ⟨L, hn, hLQ, hnL⟩ := nextPow2_spec (l := l1 + l2 + 1) (Q := 28) (by omega)
  obtain ⟨t, e1, a0, a1, a2⟩ := modPHilo_spec (P := P1) (prim := 5) (q := 3) (e := 29) (by decide) root1 (by decide +kernel) (L := L)
    (by omega) hs1 hs2 (by omega)
  obtain ⟨u, e2, b0, b1, b2⟩ := modPHilo_spec (P := P2) (prim := 3) (q := 13) (e := 27) (by decide) root2 (by decide +kernel) (L := L)
    (by omega) hs1 hs2 (by omega)
  generalize hp1 : s1.getD pr = p1 at *
  generalize hp2 : s2.getD pr = p2 at *
  have hPP : 2 ^ 28 * ((2 ^ 16 - 1) * (2 ^ 16 - 1)) * 2 < P1 * P2 := by decide +kernel
  obtain ⟨pr', e3, hlen, hat⟩ := outLoop_spec (f := crtCell t u) (g := fun j => cv l1 (at' p1) l2 (at' p2) j) hpr (by
    intro i hi
    have hiL : i < 2 ^ L := by omega
    have hi28 : i + 1 ≤ 2 ^ 28 := by omega
    have k0 := (nconv_le (A := fun i => cf p1 l1 i &&& 0xFFFF) (B := fun i => cf p2 l2 i &&& 0xFFFF)
      (fun _ => and16_le _) (fun _ => and16_le _) i).trans (Nat.mul_le_mul_right _ hi28)
    have k1 := (nconv_le (A := fun i => cf p1 l1 i &&& 0xFFFF) (B := fun i => cf p2 l2 i >>> 16)
      (fun _ => and16_le _) (fun _ => shr16_le (cf_lt _ _ _)) i).trans (Nat.mul_le_mul_right _ hi28)
    have k1' := (nconv_le (A := fun i => cf p2 l2 i &&& 0xFFFF) (B := fun i => cf p1 l1 i >>> 16)
      (fun _ => and16_le _) (fun _ => shr16_le (cf_lt _ _ _)) i).trans (Nat.mul_le_mul_right _ hi28)
    have k2 := (nconv_le (A := fun i => cf p1 l1 i >>> 16) (B := fun i => cf p2 l2 i >>> 16)
      (fun _ => shr16_le (cf_lt _ _ _)) (fun _ => shr16_le (cf_lt _ _ _)) i).trans (Nat.mul_le_mul_right _ hi28)
    rw [crtCell]
    simp only [a0.rd hiL, a1.rd hiL, a2.rd hiL, b0.rd hiL, b1.rd hiL, b2.rd hiL, Option.bind_eq_bind, Option.bind_some]
    rw [crt_spec (by omega), crt_spec (by omega), crt_spec (by omega)]
    rw [show (16 : Int) = ((16 : Nat) : Int) from rfl, Base.C04_powT]
    rw [← nconv_cv hM, nconv_hilo (cf p1 l1) (cf p2 l2) _ _ _ _ (2 ^ 16) (fun i => split16 _) (fun i => split16 _) i]
    push_cast
    congr 1
    ring)
  refine ⟨pr', ?_, hlen, hat⟩
  rw [mulFftCrt]
  simp only [hn, hp1, hp2, e1, e2, Option.bind_eq_bind, Option.bind_some]
  exact e3

/-! ### The complex transforms, in exact arithmetic -/

/-- What is assumed about the roots of unity and the rounding: `W (2^S)` is a primitive root, and rounding
`(n * k) / n` for a `uint64_t` value `k` gives `k`. -/
structure Exact (W : Nat → β) (R : Nat → β → Nat) : Prop where
  root : ∀ S, 0 < S → W (2 ^ S) ^ 2 ^ (S - 1) = -1
  round : ∀ L k, k < 2 ^ 64 → R (2 ^ L) (((2 ^ L * k : Nat) : Nat) : β) = k

theorem rootSize_spec (c L : Nat) : ∃ S, rootSize (2 ^ c) (2 ^ L) = 2 ^ S ∧ L ≤ S := by
  by_cases h : c ≤ L
  · obtain ⟨S, e, h1, h2⟩ := Fft.powLen_spec (n := 2 ^ L) (M := L) le_rfl (L - c) c (by omega)
    exact ⟨S, e, (Nat.pow_le_pow_iff_right (by norm_num)).mp h2⟩
  · refine ⟨c, ?_, by omega⟩
    have := Nat.pow_le_pow_right (n := 2) (by norm_num) (show L ≤ c by omega)
    rw [rootSize, powLen, dif_neg (by omega)]

/-- The root of order `2^L` from the cached table. -/
theorem root_ok {W : Nat → β} {R : Nat → β → Nat} (h : Exact W R) (c L : Nat) : 0 < L →
    (W (rootSize (2 ^ c) (2 ^ L)) ^ (rootSize (2 ^ c) (2 ^ L) / 2 ^ L)) ^ 2 ^ (L - 1) = -1 := by
  intro hL
  obtain ⟨S, e, hS⟩ := rootSize_spec c L
  rw [e, Nat.pow_div hS (by norm_num), ← pow_mul, ← pow_add, show S - L + (L - 1) = S - 1 by omega]
  exact h.root S (by omega)

theorem rnd_of {W : Nat → β} {R : Nat → β → Nat} (h : Exact W R) (L M : Nat) {k : Nat} (hk : k < 2 ^ 64) :
    rnd R ((k : β) * (((2 ^ L : Nat) : β) * 1)) (2 ^ L) M = k % M := by
  rw [rnd, mul_one, mul_comm, ← Nat.cast_mul, h.round L k hk, Nat.mod_eq_of_lt hk]

/-- **C121**: `_mul_fft` computes the product if the complex arithmetic is exact. -/
theorem C121_fft {M : Nat} [NeZero M] (hM : M < 2 ^ 32) {W : Nat → β} {R : Nat → β → Nat} (hE : Exact W R) (c : Nat)
    {l1 l2 : Nat} (hl : l1 + l2 < 2 ^ 28) : ImplOk (α := ZMod M) (mulFft W (2 ^ c) R) l1 l2 := by
  intro pr lr s1 s2 _ _ hr12 hpr hs1 hs2
  have hM0 : 0 < M := Nat.pos_of_ne_zero (NeZero.ne M)
  obtain ⟨L, hn, hLQ, hnL⟩ := nextPow2_spec (l := l1 + l2 + 1) (Q := 28) (by omega)
  obtain ⟨t, e1, a0, a1, a2⟩ := hilo_spec (β := β) (sc := fun x => x) (c := 1) (fun x => (mul_one x).symm) (root_ok hE c L) rfl
    hs1 hs2 (by omega)
  generalize hp1 : s1.getD pr = p1 at *
  generalize hp2 : s2.getD pr = p2 at *
  obtain ⟨pr', e3, hlen, hat⟩ := outLoop_spec (f := fftCell R (2 ^ L) t) (g := fun j => cv l1 (at' p1) l2 (at' p2) j) hpr (by
    intro i hi
    have hiL : i < 2 ^ L := by omega
    have hi28 : i + 1 ≤ 2 ^ 28 := by omega
    have k0 := (nconv_le (A := fun i => cf p1 l1 i &&& 0xFFFF) (B := fun i => cf p2 l2 i &&& 0xFFFF)
      (fun _ => and16_le _) (fun _ => and16_le _) i).trans (Nat.mul_le_mul_right _ hi28)
    have k1 := (nconv_le (A := fun i => cf p1 l1 i &&& 0xFFFF) (B := fun i => cf p2 l2 i >>> 16)
      (fun _ => and16_le _) (fun _ => shr16_le (cf_lt _ _ _)) i).trans (Nat.mul_le_mul_right _ hi28)
    have k1' := (nconv_le (A := fun i => cf p2 l2 i &&& 0xFFFF) (B := fun i => cf p1 l1 i >>> 16)
      (fun _ => and16_le _) (fun _ => shr16_le (cf_lt _ _ _)) i).trans (Nat.mul_le_mul_right _ hi28)
    have k2 := (nconv_le (A := fun i => cf p1 l1 i >>> 16) (B := fun i => cf p2 l2 i >>> 16)
      (fun _ => shr16_le (cf_lt _ _ _)) (fun _ => shr16_le (cf_lt _ _ _)) i).trans (Nat.mul_le_mul_right _ hi28)
    rw [fftCell]
    simp only [a0.rd hiL, a1.rd hiL, a2.rd hiL, Option.bind_eq_bind, Option.bind_some]
    rw [rnd_of hE L M (by omega), rnd_of hE L M (by omega), rnd_of hE L M (by omega)]
    rw [← nconv_cv hM, nconv_hilo (cf p1 l1) (cf p2 l2) _ _ _ _ (2 ^ 16) (fun i => split16 _) (fun i => split16 _) i]
    generalize nconv (fun i => cf p1 l1 i >>> 16) (fun i => cf p2 l2 i >>> 16) i = z2
    generalize nconv (fun i => cf p1 l1 i &&& 0xFFFF) (fun i => cf p2 l2 i &&& 0xFFFF) i = z0
    generalize nconv (fun i => cf p1 l1 i &&& 0xFFFF) (fun i => cf p2 l2 i >>> 16) i +
      nconv (fun i => cf p2 l2 i &&& 0xFFFF) (fun i => cf p1 l1 i >>> 16) i = z1
    have m0 := Nat.mod_lt z0 hM0
    have m1 := Nat.mod_lt z1 hM0
    have m2 := Nat.mod_lt z2 hM0
    rw [mulW, mulW, addW, Nat.mod_eq_of_lt (show z2 % M * 2 ^ 32 < 2 ^ 64 by omega),
      Nat.mod_eq_of_lt (show z1 % M * 2 ^ 16 < 2 ^ 64 by omega),
      Nat.mod_eq_of_lt (show z1 % M * 2 ^ 16 + z0 % M < 2 ^ 64 by omega)]
    push_cast
    rw [ZMod.natCast_mod, ZMod.natCast_mod, ZMod.natCast_mod]
    congr 1
    ring)
  refine ⟨pr', ?_, hlen, hat⟩
  rw [mulFft]
  simp only [hn, hp1, hp2, Option.bind_eq_bind, Base.C04_powT]
  rw [e1]
  exact e3

theorem shlSub_eq {v : Nat} (h : v < 2 ^ 53) : shlSub v = 2047 * v := by
  rw [shlSub, subW, mulW, Nat.mod_eq_of_lt (show v * 2 ^ 11 < 2 ^ 64 by omega), show v * 2 ^ 11 + (2 ^ 64 - v) = 2047 * v + 2 ^ 64 by omega,
    Nat.add_mod_right, Nat.mod_eq_of_lt (by omega)]

theorem shr22_le {x : Nat} (h : x < 2 ^ 32) : x >>> 22 ≤ 2 ^ 11 - 1 := by
  rw [Nat.shiftRight_eq_div_pow]; omega

theorem and11_le (x : Nat) : x &&& 0x7FF ≤ 2 ^ 11 - 1 := by
  rw [show (0x7FF : Nat) = 2 ^ 11 - 1 by norm_num, and_mod]; omega

/-- One coefficient from the six convolutions. -/
theorem bigCell_eq {M : Nat} [NeZero M] (hM : M < 2 ^ 32) {W : Nat → β} {R : Nat → β → Nat} (hE : Exact W R) {L : Nat} {q : Hexa β}
    {Z22 Z11 Z00 Z21 Z10 Z210 : Nat → Nat}
    (h : Rep6 q (2 ^ L) (fun j => ((Z22 j : Nat) : β) * (((2 ^ L : Nat) : β) * 1)) (fun j => ((Z11 j : Nat) : β) * (((2 ^ L : Nat) : β) * 1))
      (fun j => ((Z00 j : Nat) : β) * (((2 ^ L : Nat) : β) * 1)) (fun j => ((Z21 j : Nat) : β) * (((2 ^ L : Nat) : β) * 1))
      (fun j => ((Z10 j : Nat) : β) * (((2 ^ L : Nat) : β) * 1)) (fun j => ((Z210 j : Nat) : β) * (((2 ^ L : Nat) : β) * 1)))
    {i : Nat} (hi : i < 2 ^ L) (h22 : Z22 i < 2 ^ 64) (h11 : Z11 i < 2 ^ 64) (h00 : Z00 i < 2 ^ 64) (h21 : Z21 i < 2 ^ 64)
    (h10 : Z10 i < 2 ^ 64) (h210 : Z210 i < 2 ^ 64) :
    bigCell R (2 ^ L) q i = some ((2047 * ((Z22 i : Nat) : ZMod M) * 2 ^ 11 + (2047 * ((Z21 i : Nat) : ZMod M) + ((Z210 i : Nat) : ZMod M))) *
      2 ^ 22 - (2047 * (2047 * ((Z11 i : Nat) : ZMod M) + ((Z10 i : Nat) : ZMod M)) * 2 ^ 11 + 2047 * ((Z00 i : Nat) : ZMod M))) := by
  have hM0 : 0 < M := Nat.pos_of_ne_zero (NeZero.ne M)
  rw [bigCell]
  simp only [h.a2.rd hi, h.a1.rd hi, h.a0.rd hi, h.b2.rd hi, h.b1.rd hi, h.b0.rd hi, Option.bind_eq_bind, Option.bind_some]
  rw [rnd_of hE L M h22, rnd_of hE L M h11, rnd_of hE L M h00, rnd_of hE L M h21, rnd_of hE L M h10, rnd_of hE L M h210]
  have m22 := Nat.mod_lt (Z22 i) hM0
  have m11 := Nat.mod_lt (Z11 i) hM0
  have m00 := Nat.mod_lt (Z00 i) hM0
  have m21 := Nat.mod_lt (Z21 i) hM0
  have m10 := Nat.mod_lt (Z10 i) hM0
  have m210 := Nat.mod_lt (Z210 i) hM0
  rw [← ZMod.natCast_mod (Z22 i) M, ← ZMod.natCast_mod (Z11 i) M, ← ZMod.natCast_mod (Z00 i) M, ← ZMod.natCast_mod (Z21 i) M,
    ← ZMod.natCast_mod (Z10 i) M, ← ZMod.natCast_mod (Z210 i) M]
  generalize Z22 i % M = x22 at *
  generalize Z11 i % M = x11 at *
  generalize Z00 i % M = x00 at *
  generalize Z21 i % M = x21 at *
  generalize Z10 i % M = x10 at *
  generalize Z210 i % M = x210 at *
  rw [shlSub_eq (v := x22) (by omega), shlSub_eq (v := x11) (by omega), shlSub_eq (v := x00) (by omega), shlSub_eq (v := x21) (by omega)]
  rw [show addW 64 (2047 * x11) x10 = 2047 * x11 + x10 from Nat.mod_eq_of_lt (by omega),
    show addW 64 (2047 * x21) x210 = 2047 * x21 + x210 from Nat.mod_eq_of_lt (by omega), shlSub_eq (v := 2047 * x11 + x10) (by omega)]
  have mz := Nat.mod_lt (2047 * (2047 * x11 + x10)) hM0
  have ez : ((2047 * (2047 * x11 + x10) % M : Nat) : ZMod M) = 2047 * (2047 * (x11 : ZMod M) + (x10 : ZMod M)) := by
    rw [ZMod.natCast_mod]; push_cast; ring
  generalize 2047 * (2047 * x11 + x10) % M = z10 at *
  rw [show mulW 64 (2047 * x22) (2 ^ 11) = 2047 * x22 * 2 ^ 11 from Nat.mod_eq_of_lt (by omega),
    show mulW 64 z10 (2 ^ 11) = z10 * 2 ^ 11 from Nat.mod_eq_of_lt (by omega),
    show addW 64 (2047 * x22 * 2 ^ 11) (2047 * x21 + x210) = 2047 * x22 * 2 ^ 11 + (2047 * x21 + x210) from Nat.mod_eq_of_lt (by omega),
    show addW 64 (z10 * 2 ^ 11) (2047 * x00) = z10 * 2 ^ 11 + 2047 * x00 from Nat.mod_eq_of_lt (by omega)]
  rw [show (22 : Int) = ((22 : Nat) : Int) from rfl, Base.C04_powT, ← ez]
  push_cast
  congr 1
  ring

/-- **C121**: `_mul_fft_big` computes the product if the complex arithmetic is exact. -/
theorem C121_fft_big {M : Nat} [NeZero M] (hM : M < 2 ^ 32) {W : Nat → β} {R : Nat → β → Nat} (hE : Exact W R) (c : Nat)
    {l1 l2 : Nat} (hl : l1 + l2 < 2 ^ 28) : ImplOk (α := ZMod M) (mulFftBig W (2 ^ c) R) l1 l2 := by
  intro pr lr s1 s2 _ _ hr12 hpr hs1 hs2
  have hM0 : 0 < M := Nat.pos_of_ne_zero (NeZero.ne M)
  obtain ⟨L, hn, hLQ, hnL⟩ := nextPow2_spec (l := l1 + l2 + 1) (Q := 28) (by omega)
  have hw := root_ok hE c L
  generalize hp1 : s1.getD pr = p1 at *
  generalize hp2 : s2.getD pr = p2 at *
  obtain ⟨a, e1, x2, x1, x0⟩ := conv210_spec (β := β) (n := 2 ^ L) hs1 (by omega)
  obtain ⟨b, e2, y2, y1, y0⟩ := conv210_spec (β := β) (n := 2 ^ L) hs2 (by omega)
  obtain ⟨q1, e3, r1⟩ := fft6_spec hw
    (q := { a2 := a.1, a1 := a.2.1, a0 := a.2.2, b2 := b.1, b1 := b.2.1, b0 := b.2.2 }) ⟨x2, x1, x0, y2, y1, y0⟩
  obtain ⟨q2, e4, r2⟩ := bigLoop_spec r1
  obtain ⟨q3, e5, r3⟩ := fft6_spec (iroot_half hw) r2
  have za2 : ∀ i, l1 < i → cf p1 l1 i >>> 22 = 0 := fun i hi => by rw [cf_zero _ _ hi]; rfl
  have za1 : ∀ i, l1 < i → (cf p1 l1 i >>> 11) &&& 0x7FF = 0 := fun i hi => by rw [cf_zero _ _ hi]; rfl
  have za0 : ∀ i, l1 < i → cf p1 l1 i &&& 0x7FF = 0 := fun i hi => by rw [cf_zero _ _ hi]; rfl
  have zb2 : ∀ i, l2 < i → cf p2 l2 i >>> 22 = 0 := fun i hi => by rw [cf_zero _ _ hi]; rfl
  have zb1 : ∀ i, l2 < i → (cf p2 l2 i >>> 11) &&& 0x7FF = 0 := fun i hi => by rw [cf_zero _ _ hi]; rfl
  have zb0 : ∀ i, l2 < i → cf p2 l2 i &&& 0x7FF = 0 := fun i hi => by rw [cf_zero _ _ hi]; rfl
  have ba2 : ∀ i, cf p1 l1 i >>> 22 ≤ 2 ^ 11 - 1 := fun i => shr22_le (cf_lt _ _ _)
  have ba1 : ∀ i, (cf p1 l1 i >>> 11) &&& 0x7FF ≤ 2 ^ 11 - 1 := fun i => and11_le _
  have ba0 : ∀ i, cf p1 l1 i &&& 0x7FF ≤ 2 ^ 11 - 1 := fun i => and11_le _
  have bb2 : ∀ i, cf p2 l2 i >>> 22 ≤ 2 ^ 11 - 1 := fun i => shr22_le (cf_lt _ _ _)
  have bb1 : ∀ i, (cf p2 l2 i >>> 11) &&& 0x7FF ≤ 2 ^ 11 - 1 := fun i => and11_le _
  have bb0 : ∀ i, cf p2 l2 i &&& 0x7FF ≤ 2 ^ 11 - 1 := fun i => and11_le _
  have hi28 : ∀ {i}, i ≤ lr → i + 1 ≤ 2 ^ 28 := fun hi => by omega
  have hB : ∀ {A B : Nat → Nat} {i}, i ≤ lr → (∀ i, A i ≤ 3 * (2 ^ 11 - 1)) → (∀ i, B i ≤ 3 * (2 ^ 11 - 1)) → nconv A B i < 2 ^ 64 := by
    intro A B i hi hA hB
    have := (nconv_le hA hB i).trans (Nat.mul_le_mul_right _ (hi28 hi))
    omega
  have r4 : Rep6 q3 (2 ^ L)
      (fun j => ((nconv (fun i => cf p1 l1 i >>> 22) (fun i => cf p2 l2 i >>> 22) j : Nat) : β) * (((2 ^ L : Nat) : β) * 1))
      (fun j => ((nconv (fun i => (cf p1 l1 i >>> 11) &&& 0x7FF) (fun i => (cf p2 l2 i >>> 11) &&& 0x7FF) j : Nat) : β) *
        (((2 ^ L : Nat) : β) * 1))
      (fun j => ((nconv (fun i => cf p1 l1 i &&& 0x7FF) (fun i => cf p2 l2 i &&& 0x7FF) j : Nat) : β) * (((2 ^ L : Nat) : β) * 1))
      (fun j => ((nconv (fun i => cf p1 l1 i >>> 22 + ((cf p1 l1 i >>> 11) &&& 0x7FF))
        (fun i => cf p2 l2 i >>> 22 + ((cf p2 l2 i >>> 11) &&& 0x7FF)) j : Nat) : β) * (((2 ^ L : Nat) : β) * 1))
      (fun j => ((nconv (fun i => ((cf p1 l1 i >>> 11) &&& 0x7FF) + (cf p1 l1 i &&& 0x7FF))
        (fun i => ((cf p2 l2 i >>> 11) &&& 0x7FF) + (cf p2 l2 i &&& 0x7FF)) j : Nat) : β) * (((2 ^ L : Nat) : β) * 1))
      (fun j => ((nconv (fun i => cf p1 l1 i >>> 22 + ((cf p1 l1 i >>> 11) &&& 0x7FF) + (cf p1 l1 i &&& 0x7FF))
        (fun i => cf p2 l2 i >>> 22 + ((cf p2 l2 i >>> 11) &&& 0x7FF) + (cf p2 l2 i &&& 0x7FF)) j : Nat) : β) *
        (((2 ^ L : Nat) : β) * 1)) := by
    have hc2 : ∀ {w : β} (F G : Nat → Nat) k, dft (2 ^ L) w (fun i => ((F i : Nat) : β)) k + dft (2 ^ L) w (fun i => ((G i : Nat) : β)) k =
        dft (2 ^ L) w (fun i => ((F i + G i : Nat) : β)) k := fun F G k => by rw [← dft_add]; simp only [Nat.cast_add]
    refine ⟨r3.a2.congr fun j hj => dft_back hw za2 zb2 (by omega) hj (fun k => rfl) (fun k => rfl),
      r3.a1.congr fun j hj => dft_back hw za1 zb1 (by omega) hj (fun k => rfl) (fun k => rfl),
      r3.a0.congr fun j hj => dft_back hw za0 zb0 (by omega) hj (fun k => rfl) (fun k => rfl),
      r3.b2.congr fun j hj => dft_back (a := l1) (b := l2) (A := fun i => cf p1 l1 i >>> 22 + ((cf p1 l1 i >>> 11) &&& 0x7FF))
        (B := fun i => cf p2 l2 i >>> 22 + ((cf p2 l2 i >>> 11) &&& 0x7FF)) hw
        (fun i hi => by rw [za2 i hi, za1 i hi]) (fun i hi => by rw [zb2 i hi, zb1 i hi]) (by omega) hj
        (fun k => hc2 _ _ k) (fun k => hc2 _ _ k),
      r3.b1.congr fun j hj => dft_back (a := l1) (b := l2) (A := fun i => ((cf p1 l1 i >>> 11) &&& 0x7FF) + (cf p1 l1 i &&& 0x7FF))
        (B := fun i => ((cf p2 l2 i >>> 11) &&& 0x7FF) + (cf p2 l2 i &&& 0x7FF)) hw
        (fun i hi => by rw [za1 i hi, za0 i hi]) (fun i hi => by rw [zb1 i hi, zb0 i hi]) (by omega) hj
        (fun k => hc2 _ _ k) (fun k => hc2 _ _ k),
      r3.b0.congr fun j hj => dft_back (a := l1) (b := l2) (A := fun i => cf p1 l1 i >>> 22 + ((cf p1 l1 i >>> 11) &&& 0x7FF) + (cf p1 l1 i &&& 0x7FF))
        (B := fun i => cf p2 l2 i >>> 22 + ((cf p2 l2 i >>> 11) &&& 0x7FF) + (cf p2 l2 i &&& 0x7FF)) hw
        (fun i hi => by rw [za2 i hi, za1 i hi, za0 i hi]) (fun i hi => by rw [zb2 i hi, zb1 i hi, zb0 i hi])
        (by omega) hj (fun k => ?_) (fun k => ?_)⟩
    · rw [hc2]; exact hc2 (fun i => cf p1 l1 i >>> 22 + ((cf p1 l1 i >>> 11) &&& 0x7FF)) _ k
    · rw [hc2]; exact hc2 (fun i => cf p2 l2 i >>> 22 + ((cf p2 l2 i >>> 11) &&& 0x7FF)) _ k
  obtain ⟨pr', e6, hlen, hat⟩ := outLoop_spec (f := bigCell R (2 ^ L) q3) (g := fun j => cv l1 (at' p1) l2 (at' p2) j) hpr (by
    intro i hi
    rw [bigCell_eq hM hE r4 (show i < 2 ^ L by omega) (hB hi (fun i => (ba2 i).trans (by norm_num)) (fun i => (bb2 i).trans (by norm_num)))
      (hB hi (fun i => (ba1 i).trans (by norm_num)) (fun i => (bb1 i).trans (by norm_num)))
      (hB hi (fun i => (ba0 i).trans (by norm_num)) (fun i => (bb0 i).trans (by norm_num)))
      (hB hi (fun i => (Nat.add_le_add (ba2 i) (ba1 i)).trans (by norm_num)) (fun i => (Nat.add_le_add (bb2 i) (bb1 i)).trans (by norm_num)))
      (hB hi (fun i => (Nat.add_le_add (ba1 i) (ba0 i)).trans (by norm_num)) (fun i => (Nat.add_le_add (bb1 i) (bb0 i)).trans (by norm_num)))
      (hB hi (fun i => (Nat.add_le_add (Nat.add_le_add (ba2 i) (ba1 i)) (ba0 i)).trans (by norm_num))
        (fun i => (Nat.add_le_add (Nat.add_le_add (bb2 i) (bb1 i)) (bb0 i)).trans (by norm_num)))]
    rw [← nconv_cv hM, nconv_210 (β := ZMod M) (cf p1 l1) (cf p2 l2) _ _ _ _ _ _ (fun i => split11 _) (fun i => split11 _) i])
  refine ⟨pr', ?_, hlen, hat⟩
  rw [mulFftBig]
  simp only [hn, hp1, hp2, Option.bind_eq_bind, Base.C04_powT, e1, e2, Option.bind_some]
  rw [e3, Option.bind_some, e4, Option.bind_some, e5]
  exact e6

/-! ### Choosing the method -/

/-- **C121**: `_mul` for `modulo` coefficients, for any aliasing of the arrays, any truncation and whatever the floating-point
cost comparison `cheap` says. -/
theorem C121_mul_any {M : Nat} [NeZero M] (hM : M < 2 ^ 32) {W : Nat → β} {R : Nat → β → Nat} (hE : Exact W R) (c : Nat)
    (cheap : Nat → Nat → Bool) : ∀ (fuel l1 l2 : Nat), l1 + l2 < fuel → l1 + l2 < 2 ^ 28 →
    MulOk (α := ZMod M) (mulModF W (2 ^ c) R cheap fuel) l1 l2 := by
  intro fuel
  induction fuel with
  | zero => intro l1 l2 h; omega
  | succ fuel ih =>
    intro l1 l2 h h28 pr lr s1 s2 hpr hs1 hs2
    have himpl : ∀ a b, a + b ≤ l1 + l2 → ImplOk (α := ZMod M) (impl W (2 ^ c) R cheap (mulModF W (2 ^ c) R cheap fuel)) a b := by
      intro a b hab pr lr s1 s2 g1 g2 g3 g4 g5 g6
      rw [impl]
      by_cases ht : b < 48
      · rw [if_pos ht]
        exact Polynom.C37_mul_long a b pr lr s1 s2 g1 g2 g3 g4 g5 g6
      rw [if_neg ht]
      by_cases hk : b < 100 ∨ a < 450 ∨ cheap a b = true
      · rw [if_pos hk]
        exact Polynom.karatsuba_spec _ a b (fun x y hxy => ih x y (by omega) (by omega)) pr lr s1 s2 g1 g2 g3 g4 g5 g6
      rw [if_neg hk]
      by_cases hf : a + b ≤ 100000
      · rw [if_pos hf]
        exact C121_fft hM hE c (by omega) pr lr s1 s2 g1 g2 g3 g4 g5 g6
      · rw [if_neg hf]
        exact C121_crt hM (by omega) pr lr s1 s2 g1 g2 g3 g4 g5 g6
    rw [mulModF]
    beta_reduce
    by_cases hsw : l2 > l1
    · rw [if_pos hsw]
      obtain ⟨pr', e, hl, ha⟩ := Polynom.mulCore_spec _ l2 l1 (by omega) (fun a b hA hB => himpl a b (by omega)) pr lr s2 s1 hpr hs2 hs1
      refine ⟨pr', e, hl, fun j => ?_⟩
      rw [ha, Polynom.cv_comm]
    · rw [if_neg hsw]
      exact Polynom.mulCore_spec _ l1 l2 (by omega) (fun a b hA hB => himpl a b (by omega)) pr lr s1 s2 hpr hs1 hs2

/-- **C121**: `_mul` for `modulo` coefficients is the product of the polynomials, truncated after `lr`, whatever method
is chosen (`cheap` is arbitrary), for every modulus below `2^32` and `l1 + l2 < 2^28`; stated with Mathlib's polynomials. -/
theorem C121_mul {M : Nat} [NeZero M] (hM : M < 2 ^ 32) {W : Nat → β} {R : Nat → β → Nat} (hE : Exact W R) (c : Nat)
    (cheap : Nat → Nat → Bool) (p1 p2 : List (ZMod M)) (h1 : p1 ≠ []) (h2 : p2 ≠ []) (hl : p1.length + p2.length < 2 ^ 28)
    (pr : List (ZMod M)) (lr : Nat) (hr : lr < pr.length) :
    ∃ fuel0, ∀ fuel ≥ fuel0, ∃ pr', mulModF W (2 ^ c) R cheap fuel pr lr (some p1) (p1.length - 1) (some p2) (p2.length - 1) = some pr' ∧
      pr'.length = pr.length ∧ (∀ j, j ≤ lr → at' pr' j = (Polynom.poly p1 * Polynom.poly p2).coeff j) ∧
      ∀ j, lr < j → at' pr' j = at' pr j := by
  have z1 : 0 < p1.length := List.length_pos_iff.mpr h1
  have z2 : 0 < p2.length := List.length_pos_iff.mpr h2
  refine ⟨p1.length + p2.length, fun fuel hf => ?_⟩
  obtain ⟨pr', e, hlen, hat⟩ := C121_mul_any hM hE c cheap fuel (p1.length - 1) (p2.length - 1) (by omega) (by omega) pr lr
    (some p1) (some p2) hr (by simp only [Option.getD_some]; omega) (by simp only [Option.getD_some]; omega)
  refine ⟨pr', e, hlen, fun j hj => ?_, fun j hj => by rw [hat, if_neg (by omega)]⟩
  rw [hat, if_pos hj, Polynom.cv_eq_sum, Polynomial.coeff_mul, Finset.Nat.sum_antidiagonal_eq_sum_range_succ_mk]
  refine Finset.sum_congr rfl fun i _ => ?_
  simp only [Polynom.poly_coeff, Option.getD_some]
  have hz : ∀ (p : List (ZMod M)) i, 0 < p.length → (if i ≤ p.length - 1 then at' p i else 0) = at' p i := by
    intro p i hp
    split_ifs with h
    · rfl
    · exact (Polynom.at'_ge (by omega)).symm
  rw [hz _ _ z1, hz _ _ z2]

/-! ### The hypotheses are met -/

/-- Exact complex numbers with `cos` and `sin` as in root_wrapper.h:55-56, rounding the real part as in polynom_mod.h:59. -/
theorem C121_exact_complex : Exact (fun s : Nat => Complex.exp (2 * Real.pi * Complex.I / s))
    (fun n z => (round (z.re / n)).toNat) := by
  refine ⟨fun S hS => ?_, fun L k _ => ?_⟩
  · beta_reduce
    rw [← Complex.exp_nat_mul]
    obtain ⟨q, rfl⟩ : ∃ q, S = q + 1 := ⟨S - 1, by omega⟩
    rw [show ((2 ^ (q + 1 - 1) : Nat) : ℂ) * (2 * Real.pi * Complex.I / ((2 ^ (q + 1) : Nat) : ℂ)) = Real.pi * Complex.I by
      have : (2 : ℂ) ^ q ≠ 0 := pow_ne_zero _ two_ne_zero
      push_cast
      rw [pow_succ]
      field_simp]
    exact Complex.exp_pi_mul_I
  · beta_reduce
    rw [Complex.natCast_re, Nat.cast_mul, mul_div_cancel_left₀ _ (by positivity), round_natCast, Int.toNat_natCast]

example (cheap : Nat → Nat → Bool) (p1 p2 pr : List (ZMod 1000000007)) (h1 : p1.length = 70001) (h2 : p2.length = 60001)
    (hr : pr.length = 1000) :
    ∃ fuel0, ∀ fuel ≥ fuel0, ∃ pr', mulModF (fun s : Nat => Complex.exp (2 * Real.pi * Complex.I / s)) (2 ^ 10)
      (fun n z => (round (z.re / n)).toNat) cheap fuel pr 999 (some p1) (p1.length - 1) (some p2) (p2.length - 1) = some pr' ∧
      pr'.length = pr.length ∧ (∀ j, j ≤ 999 → at' pr' j = (Polynom.poly p1 * Polynom.poly p2).coeff j) ∧
      ∀ j, 999 < j → at' pr' j = at' pr j :=
  C121_mul (by norm_num) C121_exact_complex 10 cheap p1 p2 (by rintro rfl; simp at h1) (by rintro rfl; simp at h2) (by omega) pr 999
    (by omega)

example : crt (-1) (-1) = P1 * P2 - 1 := by decide +kernel
example : crt 1 0 = (P1 - 12) * P2 := by decide +kernel
example : mulFftCrt (M := 7) [0, 0, 0] 2 (some [3, 5]) 1 (some [2, 6]) 1 = some [6, 0, 2] := by decide +kernel
example : mulFftCrt (M := 7) [3, 5, 0] 1 none 1 (some [2, 6]) 1 = some [6, 0, 0] := by decide +kernel

/-- A computable stand-in for the complex numbers: roots modulo `P1`. -/
def rootEx (s : Nat) : ZMod P1 := powT (5 : ZMod P1) (((P1 - 1) / s : Nat) : Int)
def roundEx (n : Nat) (z : ZMod P1) : Nat := (z * ((n : Nat) : ZMod P1)⁻¹).val

example : mulFft (M := 7) rootEx 1 roundEx [0, 0, 0] 2 (some [3, 5]) 1 (some [2, 6]) 1 = some [6, 0, 2] := by decide +kernel
example : mulFft (M := 70001) rootEx 8 roundEx [0, 0, 0] 2 (some [70000, 5]) 1 (some [69999, 6]) 1 = some [2, 69985, 30] := by decide +kernel
example : mulFftBig (M := 70001) rootEx 8 roundEx [0, 0, 0] 2 (some [70000, 5]) 1 (some [69999, 6]) 1 = some [2, 69985, 30] := by decide +kernel

example : ImplOk (α := ZMod 7) mulFftCrt 300 200 := C121_crt (by norm_num) (by norm_num)

end Altruct.PolyMod
