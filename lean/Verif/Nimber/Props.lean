/-
Property C67: `nimber.h` computes nim sums, nim products, square roots, inverses and quotients.
-/
import Verif.Nimber.Model
import Verif.Nimber.Fermat

namespace Altruct.Nimber

local infixl:70 " ⊗ " => nmul

/-! ### words -/

section
variable {K : Nat}

theorem pow2_of_lt (w n : Nat) (h : n < w) : pow2 w n = 2 ^ n := if_pos h

theorem lt_two_pow' (k : Nat) : k < 2 ^ k := Nat.lt_two_pow_self

theorem pow_lt (k : Nat) (h : k < K) : 2 ^ k < 2 ^ K := Nat.pow_lt_pow_right (by omega) h

theorem F_le (k : Nat) (h : k ≤ K) : F k ≤ F K := Nat.pow_le_pow_right (by omega) (Nat.pow_le_pow_right (by omega) h)

theorem pow2_k (k : Nat) (h : k < K) : pow2 (2 ^ K) k = 2 ^ k :=
  pow2_of_lt _ _ (lt_trans h (lt_two_pow' K))

theorem high_spec (v k : Nat) (h : k < K) : high (2 ^ K) v k = some (v / F k) := by
  rw [high, pow2_k k h, if_pos (pow_lt k h), Nat.shiftRight_eq_div_pow, F]

theorem low_spec (v k : Nat) (h : k < K) : low (2 ^ K) v k = v % F k := by
  have h1 : 2 ^ 2 ^ k < 2 ^ 2 ^ K := Nat.pow_lt_pow_right (by omega) (pow_lt k h)
  have h2 := Nat.two_pow_pos (2 ^ k)
  rw [low, pow2_k k h, pow2_of_lt _ _ (pow_lt k h), show 2 ^ 2 ^ k + 2 ^ 2 ^ K - 1 = 2 ^ 2 ^ k - 1 + 2 ^ 2 ^ K by omega,
    Nat.add_mod_right, Nat.mod_eq_of_lt (by omega), Nat.and_two_pow_sub_one_eq_mod, F]

theorem join_spec (hi lo k : Nat) (h : k < K) (hh : hi < F k) : join (2 ^ K) hi lo k = some (F k * hi ^^^ lo) := by
  have hlt : F k * hi < F K := by
    have h1 : F k * hi < F (k + 1) := by rw [F_succ]; exact Nat.mul_lt_mul_of_pos_left hh (F_pos k)
    exact lt_of_lt_of_le h1 (F_le _ h)
  rw [join, pow2_k k h, if_pos (pow_lt k h), Nat.shiftLeft_eq, mul_comm, ← F, Nat.mod_eq_of_lt]
  exact hlt

theorem levelLoop_spec (v : Nat) (hv : v < F K) : ∀ fuel k, k ≤ K → K < fuel + k → (∀ j < k, F j ≤ v) →
    ∃ l, levelLoop (2 ^ K) v fuel (F k % F K) k = some l ∧ l ≤ K ∧ v < F l ∧ ∀ j < l, F j ≤ v := by
  intro fuel
  induction fuel with
  | zero => intro k h1 h2; omega
  | succ fuel ih =>
    intro k h1 h2 h3
    rw [levelLoop]
    rcases Nat.lt_or_ge k K with hk | hk
    · have hlt : F k < F K := Nat.pow_lt_pow_right (by omega) (pow_lt k hk)
      rw [Nat.mod_eq_of_lt hlt]
      have hp := F_pos k
      split_ifs with hc
      · rw [show F k * F k % 2 ^ 2 ^ K = F (k + 1) % F K by rw [F_succ]; rfl]
        exact ih (k + 1) (by omega) (by omega) (fun j hj => by
          rcases Nat.lt_or_ge j k with h | h
          · exact h3 j h
          · obtain rfl : j = k := by omega
            exact hc.2)
      · exact ⟨k, rfl, h1, by omega, h3⟩
    · obtain rfl : k = K := by omega
      rw [Nat.mod_self, if_neg (by simp)]
      exact ⟨k, rfl, h1, hv, h3⟩

theorem level_spec (hK : 1 ≤ K) (v : Nat) (hv : v < F K) :
    ∃ l, level' (2 ^ K) v = some l ∧ l ≤ K ∧ v < F l ∧ ∀ j < l, F j ≤ v := by
  have h := levelLoop_spec v hv (2 ^ K + 1) 0 (by omega) (by have := lt_two_pow' K; omega) (by simp)
  have h2 : F 0 < F K := Nat.pow_lt_pow_right (by omega) (pow_lt 0 hK)
  rw [Nat.mod_eq_of_lt h2] at h
  exact h

/-! ### `lift`, `sqrt`, `mul2` -/

theorem div_lt (k a : Nat) (h : a < F (k + 1)) : a / F k < F k := by
  rw [F_succ] at h; exact Nat.div_lt_of_lt_mul h

theorem mod_lt (k a : Nat) : a % F k < F k := Nat.mod_lt _ (F_pos k)

theorem H_nmul_succ (k : Nat) : H (k + 1) = F k ⊗ H k := by rw [H_succ, (level k).F_nmul _ (H_lt k)]

theorem lift_spec : ∀ k, k ≤ K → ∀ a, a < F k → lift (2 ^ K) a k = some (a ⊗ H k) := by
  intro k
  induction k with
  | zero => intro _ a _; rw [lift, show H 0 = 1 from rfl, nmul_one]
  | succ k ih =>
    intro hk a ha
    have L := level k
    have h1 := div_lt k a ha
    have h0 := mod_lt k a
    have hH := H_lt k
    have key : a ⊗ H (k + 1) = F k * ((a / F k ^^^ a % F k) ⊗ H k) ^^^ ((a / F k) ⊗ H k) ⊗ H k := by
      conv_lhs => rw [unpack k a, H_succ, ← Nat.xor_zero (F k * H k)]
      rw [L.pack_nmul _ _ _ _ h1 h0 hH (F_pos k), nmul_zero, nmul_zero, Nat.xor_zero, Nat.xor_zero, ← xor_nmul, nmul_comm (H k)]
    rw [lift, high_spec a k (by omega), low_spec a k (by omega), Option.bind_eq_bind, Option.bind_some]
    simp only [Option.bind_eq_bind]
    split_ifs with hc
    · rw [hc, Nat.zero_xor, zero_nmul, zero_nmul, Nat.xor_zero] at key
      rw [ih (by omega) _ h0, Option.bind_some, join_spec _ _ _ (by omega) (L.closed _ _ h0 hH), key, Nat.xor_zero]
    · have hx := xor_lt k _ _ h1 h0
      rw [ih (by omega) _ hx, Option.bind_some, ih (by omega) _ h1, Option.bind_some,
        ih (by omega) _ (L.closed _ _ h1 hH), Option.bind_some,
        join_spec _ _ _ (by omega) (L.closed _ _ hx hH), key]

theorem sqrt_spec (hK : 1 ≤ K) : ∀ fuel v l, v < F l → l < fuel → l ≤ K → ∃ r, sqrt (2 ^ K) fuel v = some r ∧ r ⊗ r = v ∧ r < F l := by
  intro fuel
  induction fuel with
  | zero => intro v l _ h; omega
  | succ fuel ih =>
    intro v l0 hv hl hl0
    obtain ⟨l, e, h1, h2, h3⟩ := level_spec hK v (lt_of_lt_of_le hv (F_le _ hl0))
    have hll : l ≤ l0 := by
      by_contra hc
      have := h3 l0 (by omega)
      omega
    rw [sqrt, e, Option.bind_eq_bind, Option.bind_some]
    rcases l with _ | k
    · rw [if_pos rfl]
      refine ⟨v, rfl, ?_, hv⟩
      have : v < 2 := h2
      rcases (show v = 0 ∨ v = 1 by omega) with rfl | rfl
      · rw [zero_nmul]
      · rw [one_nmul]
    · rw [if_neg (by omega)]
      simp only [Nat.add_sub_cancel]
      have L := level k
      have d1 := div_lt k v h2
      have d0 := mod_lt k v
      obtain ⟨y, ey, y1, y2⟩ := ih (v / F k) k d1 (by omega) (by omega)
      obtain ⟨z, ez, z1, z2⟩ := ih ((v / F k) ⊗ H k ^^^ v % F k) k (xor_lt k _ _ (L.closed _ _ d1 (H_lt k)) d0) (by omega) (by omega)
      rw [high_spec v k (by omega), low_spec v k (by omega), Option.bind_some, lift_spec k (by omega) _ d1,
        Option.bind_some, ey, Option.bind_some, ez, Option.bind_some,
        join_spec _ _ _ (by omega) y2]
      refine ⟨_, rfl, ?_, lt_of_lt_of_le (pack_lt k y z y2 z2) (F_le _ hll)⟩
      rw [L.pack_nmul y z y z y2 z2 y2 z2, nmul_comm z y, Nat.xor_assoc (y ⊗ y), Nat.xor_self, Nat.xor_zero, y1, z1]
      conv_rhs => rw [unpack k v]
      rw [nmul_comm (H k)]
      congr 1
      rw [← Nat.xor_assoc, Nat.xor_self, Nat.zero_xor]

theorem mul2_spec (hK : 1 ≤ K) : ∀ fuel x y l, x < F l → y < F l → l < fuel → l ≤ K → mul2 (2 ^ K) fuel x y = some (x ⊗ y) := by
  intro fuel
  induction fuel with
  | zero => intro x y l _ _ h; omega
  | succ fuel ih =>
    have main : ∀ x y l, y ≤ x → x < F l → y < F l → l < fuel + 1 → l ≤ K →
        (do
          if y = 0 then some 0
          else if y = 1 then some x
          else do
            let lx ← level' (2 ^ K) x
            let ly ← level' (2 ^ K) y
            let k := lx - 1
            if k > ly - 1 then do
              let xh ← high (2 ^ K) x k
              let xl := low (2 ^ K) x k
              let p ← mul2 (2 ^ K) fuel xh y
              let q ← mul2 (2 ^ K) fuel xl y
              join (2 ^ K) p q k
            else do
              let xh ← high (2 ^ K) x k
              let xl := low (2 ^ K) x k
              let yh ← high (2 ^ K) y k
              let yl := low (2 ^ K) y k
              let xlyl ← mul2 (2 ^ K) fuel xl yl
              let xhyh ← mul2 (2 ^ K) fuel xh yh
              let xsys ← mul2 (2 ^ K) fuel (xh ^^^ xl) (yh ^^^ yl)
              let t ← lift (2 ^ K) xhyh k
              join (2 ^ K) (xsys ^^^ xlyl) (t ^^^ xlyl) k) = some (x ⊗ y) := by
      intro x y l0 hyx hx hy hl hl0
      by_cases hy0 : y = 0
      · rw [if_pos hy0, hy0, nmul_zero]
      rw [if_neg hy0]
      by_cases hy1 : y = 1
      · rw [if_pos hy1, hy1, nmul_one]
      rw [if_neg hy1]
      obtain ⟨lx, ex, x1, x2, x3⟩ := level_spec hK x (lt_of_lt_of_le hx (F_le _ hl0))
      obtain ⟨ly, ey, y1, y2, y3⟩ := level_spec hK y (lt_of_lt_of_le hy (F_le _ hl0))
      have hllx : lx ≤ l0 := by
        by_contra hc
        have := x3 l0 (by omega)
        omega
      have hlyx : ly ≤ lx := by
        by_contra hc
        have := y3 lx (by omega)
        omega
      have hly : 1 ≤ ly := by
        rcases ly with _ | ly
        · have : y < 2 := y2
          omega
        · omega
      obtain ⟨k, rfl⟩ : ∃ k, lx = k + 1 := ⟨lx - 1, by omega⟩
      simp only [Option.bind_eq_bind]
      rw [ex, Option.bind_some, ey, Option.bind_some]
      simp only [Nat.add_sub_cancel]
      have L := level k
      have d1 := div_lt k x x2
      have d0 := mod_lt k x
      have hx' := unpack k x
      split_ifs with hc
      · have hyk : y < F k := lt_of_lt_of_le y2 (F_le _ (by omega))
        rw [high_spec x k (by omega), low_spec x k (by omega), Option.bind_some, ih _ y k d1 hyk (by omega) (by omega),
          Option.bind_some, ih _ y k d0 hyk (by omega) (by omega), Option.bind_some,
          join_spec _ _ _ (by omega) (L.closed _ _ d1 hyk), ← L.F_nmul _ (L.closed _ _ d1 hyk), ← nmul_assoc, ← xor_nmul,
          L.F_nmul _ d1, ← hx']
      · obtain rfl : ly = k + 1 := by omega
        have f1 := div_lt k y y2
        have f0 := mod_lt k y
        have s1 := xor_lt k _ _ d1 d0
        have s2 := xor_lt k _ _ f1 f0
        rw [high_spec x k (by omega), low_spec x k (by omega), Option.bind_some, high_spec y k (by omega), low_spec y k (by omega),
          Option.bind_some, ih _ _ k d0 f0 (by omega) (by omega), Option.bind_some, ih _ _ k d1 f1 (by omega) (by omega),
          Option.bind_some, ih _ _ k s1 s2 (by omega) (by omega), Option.bind_some, lift_spec k (by omega) _ (L.closed _ _ d1 f1),
          Option.bind_some, join_spec _ _ _ (by omega) (xor_lt k _ _ (L.closed _ _ s1 s2) (L.closed _ _ d0 f0))]
        conv_rhs => rw [hx', unpack k y]
        rw [L.pack_nmul _ _ _ _ d1 d0 f1 f0, nmul_comm (H k)]
        congr 3
        simp only [nmul_xor, xor_nmul]
        generalize (x / F k) ⊗ (y / F k) = a
        generalize (x % F k) ⊗ (y / F k) = b
        generalize (x / F k) ⊗ (y % F k) = c
        generalize (x % F k) ⊗ (y % F k) = d
        xor_bits
    intro x y l hx hy hl hl0
    rw [mul2]
    rcases Nat.lt_or_ge x y with h | h
    · simp only [if_pos h]
      rw [nmul_comm]
      exact main y x l h.le hy hx hl hl0
    · simp only [if_neg (Nat.not_lt.mpr h)]
      exact main x y l h hx hy hl hl0

end

end Altruct.Nimber
