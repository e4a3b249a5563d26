/-
C126: the table of roots of unity and its wrapper.
-/
import Verif.RootWrapper.Model
import Verif.Fft.ConvProps
import Mathlib.Analysis.SpecialFunctions.Complex.Circle

namespace Altruct.RootWrapper

variable {α : Type}

/-- The cache is the table of the `2^s` powers of the root of that order. -/
def Good (rt : Nat → Nat → α) (c : Cache α) (s : Nat) : Prop := Rep c.tab (2 ^ s) (rt (2 ^ s))

theorem powLen_ge (l : Nat) : ∀ d s, l ≤ 2 ^ s + d → ∃ S, Fft.powLen l (2 ^ s) = 2 ^ S ∧ s ≤ S ∧ l ≤ 2 ^ S ∧ (2 ^ S = 2 ^ s ∨ 2 ^ S < 2 * l) := by
  intro d
  induction d with
  | zero =>
    intro s h
    refine ⟨s, ?_, le_rfl, by omega, .inl rfl⟩
    rw [Fft.powLen, dif_neg (by omega)]
  | succ d ih =>
    intro s h
    have hp := Nat.two_pow_pos s
    by_cases hc : 2 ^ s < l
    · obtain ⟨S, e, h1, h2, h3⟩ := ih (s + 1) (by rw [pow_succ]; omega)
      refine ⟨S, ?_, by omega, h2, .inr ?_⟩
      · rw [Fft.powLen, dif_pos ⟨hc, hp⟩, ← e, pow_succ]
      · rcases h3 with h3 | h3
        · rw [h3, pow_succ]; omega
        · exact h3
    · refine ⟨s, ?_, le_rfl, by omega, .inl rfl⟩
      rw [Fft.powLen, dif_neg (by omega)]

theorem get_spec (rt : Nat → Nat → α) {c : Cache α} {s : Nat} (h : Good rt c s) (l : Nat) :
    ∃ S, Good rt (get rt c l).1 S ∧ (get rt c l).2 = ⟨(get rt c l).1.gen, 2 ^ S, 1⟩ ∧ s ≤ S ∧ l ≤ 2 ^ S ∧ (2 ^ S = 2 ^ s ∨ 2 ^ S < 2 * l) ∧
      (l ≤ 2 ^ s → (get rt c l).1 = c) := by
  have hl : c.tab.length = 2 ^ s := h.len
  rw [get, hl]
  by_cases hc : 2 ^ s < l
  · obtain ⟨S, e, h1, h2, h3⟩ := powLen_ge l l s (by omega)
    rw [if_pos hc, e]
    refine ⟨S, ⟨by simp, fun i hi => ?_⟩, rfl, h1, h2, h3, fun h => by omega⟩
    simp [hi]
  · rw [if_neg hc]
    exact ⟨s, h, rfl, le_rfl, by omega, .inl rfl, fun _ => rfl⟩

theorem after_spec (rt : Nat → Nat → α) (ls : List Nat) : ∀ (c : Cache α) (s : Nat), Good rt c s →
    ∃ S, Good rt (after rt c ls) S ∧ s ≤ S ∧ (∀ l ∈ ls, l ≤ 2 ^ S) ∧ ((∀ l ∈ ls, l ≤ 2 ^ s) → after rt c ls = c) := by
  induction ls with
  | nil => intro c s h; exact ⟨s, h, le_rfl, by simp, fun _ => rfl⟩
  | cons l ls ih =>
    intro c s h
    obtain ⟨S, h1, -, h2, h3, -, h5⟩ := get_spec rt h l
    obtain ⟨S', k1, k2, k3, k4⟩ := ih _ _ h1
    refine ⟨S', k1, by omega, ?_, ?_⟩
    · intro x hx
      rcases List.mem_cons.mp hx with rfl | hx
      · exact le_trans h3 (Nat.pow_le_pow_right (by norm_num) k2)
      · exact k3 x hx
    · intro hx
      have e := h5 (hx l (by simp))
      rw [after, List.foldl_cons]
      rw [e]
      have := fun hy => k4 hy
      rw [e] at this
      exact this (fun x hy => le_trans (hx x (by simp [hy])) (Nat.pow_le_pow_right (by norm_num) h2))

theorem mulIdx_eq (s a b : Nat) : mulIdx (2 ^ s) a b = (a + b) % 2 ^ s := by
  rw [mulIdx, Nat.and_two_pow_sub_one_eq_mod]

/-- **C126**: after every history `ls` of requests, a request for `l` roots returns a wrapper of a power of two `2^S ≥ l` of
roots, of index 1, pointing to the current table; that table holds all the `2^S`-th roots of unity.  It reads the principal
root, now and after all later requests for at most `2^S` roots. -/
theorem C126_get [One α] (rt : Nat → Nat → α) (h1 : rt 1 0 = 1) (ls : List Nat) (l : Nat) :
    ∃ S c w, get rt (after rt Cache.init ls) l = (c, w) ∧ w.size = 2 ^ S ∧ w.index = 1 ∧ (l ≤ 2 ^ S ∧ ∀ x ∈ ls, x ≤ 2 ^ S) ∧
      ∀ later, (∀ x ∈ later, x ≤ 2 ^ S) → ∀ i, i < 2 ^ S →
        ({ w with index := i } : Wrap).deref (after rt c later) = some (rt (2 ^ S) i) := by
  have h0 : Good rt Cache.init 0 := ⟨rfl, fun i hi => by
    have : i = 0 := by simpa using hi
    subst this; simp [Cache.init, h1]⟩
  obtain ⟨s, k1, -, k2, -⟩ := after_spec rt ls _ _ h0
  obtain ⟨S, e1, e2, e3, e4, -, -⟩ := get_spec rt k1 l
  refine ⟨S, (get rt (after rt Cache.init ls) l).1, (get rt (after rt Cache.init ls) l).2, Prod.mk.eta.symm, by rw [e2], by rw [e2], ⟨e4, fun x hx => le_trans (k2 x hx) (Nat.pow_le_pow_right (by norm_num) e3)⟩,
    fun later hl i hi => ?_⟩
  obtain ⟨_, -, -, -, k4⟩ := after_spec rt later _ _ e1
  rw [k4 hl, e2, Wrap.deref, if_pos rfl]
  exact e1.rd hi

/-- **C126**: products of wrappers read as products of what they read, and the identity as 1. -/
theorem C126_mul [Monoid α] (s : Nat) (w : α) (hw : w ^ 2 ^ s = 1) (c : Cache α) (h : Rep c.tab (2 ^ s) (fun i => w ^ i))
    (x y : Wrap) (hx : x.roots = c.gen) (hs : x.size = 2 ^ s) (a b : α) (ha : x.deref c = some a)
    (hy : y.roots = c.gen) (hb : y.deref c = some b) :
    (x.mul y).deref c = some (a * b) ∧ x.one.deref c = some 1 ∧ (x.mul y).index < 2 ^ s := by
  have key : ∀ z : Wrap, z.roots = c.gen → ∀ v, z.deref c = some v → v = w ^ z.index := by
    intro z hz v hv
    rw [Wrap.deref, if_pos hz] at hv
    have hlt : z.index < 2 ^ s := by
      rw [← h.len]
      by_contra hn
      rw [rd, List.getElem?_eq_none (by omega)] at hv
      cases hv
    rw [h.rd hlt] at hv
    exact (Option.some.inj hv).symm
  have hp := Nat.two_pow_pos s
  have hm := Nat.mod_lt (x.index + y.index) hp
  refine ⟨?_, ?_, ?_⟩
  · rw [Wrap.deref, Wrap.mul, if_pos hx]
    simp only
    rw [hs, mulIdx_eq, h.rd hm, key x hx a ha, key y hy b hb, ← pow_add]
    congr 1
    conv_rhs => rw [← Nat.mod_add_div (x.index + y.index) (2 ^ s), pow_add, pow_mul, hw, one_pow, mul_one]
  · rw [Wrap.deref, Wrap.one, if_pos hx]
    simp only
    rw [h.rd hp, pow_zero]
  · rw [Wrap.mul]
    simp only
    rw [hs, mulIdx_eq]
    exact hm

/-! ### Used in a transform -/

/-- The wrappers of one table with `2^s` roots. -/
structure Idx (s : Nat) where
  val : Nat
  lt : val < 2 ^ s

@[ext] theorem Idx.ext {s : Nat} {a b : Idx s} (h : a.val = b.val) : a = b := by
  cases a; cases b; cases h; rfl

instance (s : Nat) : Monoid (Idx s) where
  mul a b := ⟨mulIdx (2 ^ s) a.val b.val, by rw [mulIdx_eq]; exact Nat.mod_lt _ (Nat.two_pow_pos s)⟩
  one := ⟨0, Nat.two_pow_pos s⟩
  mul_assoc a b c := by
    apply Idx.ext
    change mulIdx (2 ^ s) (mulIdx (2 ^ s) a.val b.val) c.val = mulIdx (2 ^ s) a.val (mulIdx (2 ^ s) b.val c.val)
    simp only [mulIdx_eq, Nat.mod_add_mod, Nat.add_mod_mod, Nat.add_assoc]
  one_mul a := by
    apply Idx.ext
    change mulIdx (2 ^ s) 0 a.val = a.val
    rw [mulIdx_eq, Nat.zero_add, Nat.mod_eq_of_lt a.lt]
  mul_one a := by
    apply Idx.ext
    change mulIdx (2 ^ s) a.val 0 = a.val
    rw [mulIdx_eq, Nat.add_zero, Nat.mod_eq_of_lt a.lt]

/-- Reading is a homomorphism. -/
def readHom [Monoid α] (s : Nat) (w : α) (hw : w ^ 2 ^ s = 1) : Idx s →* α where
  toFun i := w ^ i.val
  map_one' := pow_zero w
  map_mul' a b := by
    change w ^ mulIdx (2 ^ s) a.val b.val = _
    rw [mulIdx_eq, ← pow_add]
    conv_rhs => rw [← Nat.mod_add_div (a.val + b.val) (2 ^ s), pow_add, pow_mul, hw, one_pow, mul_one]

/-- The principal complex roots, in exact arithmetic. -/
noncomputable def cis (n i : Nat) : ℂ := Complex.exp (2 * Real.pi * Complex.I * i / n)

theorem cis_pow (n i : Nat) : cis n i = cis n 1 ^ i := by
  rw [cis, cis, ← Complex.exp_nat_mul]
  congr 1
  push_cast
  ring

theorem cis_half (s : Nat) : cis (2 ^ (s + 1)) 1 ^ 2 ^ s = -1 := by
  rw [cis, ← Complex.exp_nat_mul]
  have h2 : ((2 : ℂ) ^ s) ≠ 0 := pow_ne_zero _ two_ne_zero
  rw [show ((2 ^ s : Nat) : ℂ) * (2 * Real.pi * Complex.I * (1 : Nat) / ((2 ^ (s + 1) : Nat) : ℂ)) = Real.pi * Complex.I by
    push_cast
    rw [pow_succ]
    field_simp]
  exact Complex.exp_pi_mul_I

theorem cis_full (s : Nat) : cis (2 ^ s) 1 ^ 2 ^ s = 1 := by
  cases s with
  | zero => simp [cis, Complex.exp_two_pi_mul_I]
  | succ s =>
    have h := cis_half s
    generalize cis (2 ^ (s + 1)) 1 = w at h ⊢
    rw [pow_succ, pow_mul, h]; norm_num

/-- **C126**: the convolution (C42) of complex sequences through the wrapper of at least as many roots as the result is
long, and at least two, is the convolution. -/
theorem C126_convolution (s : Nat) (hs : 1 ≤ s) (u v : List ℂ) (hne : 0 < u.length + v.length)
    (hM : u.length + v.length - 1 ≤ 2 ^ s) :
    Fft.convolution (fun i : Idx s => cis (2 ^ s) i.val) (fun a b : ℂ => a / b) u v
      ⟨1, Nat.one_lt_two_pow (by omega)⟩ (2 ^ s) = some ((List.range (u.length + v.length - 1)).map (Fft.lconv u v)) := by
  have e : (fun i : Idx s => cis (2 ^ s) i.val) = readHom s (cis (2 ^ s) 1) (cis_full s) := by
    funext i
    exact cis_pow _ _
  rw [e]
  refine Fft.C42_convolution _ (fun h => ?_) (fun L _ => ?_) hne hM
  · obtain ⟨q, rfl⟩ : ∃ q, s = q + 1 := ⟨s - 1, by omega⟩
    change (cis (2 ^ (q + 1)) 1 ^ 1) ^ 2 ^ (q + 1 - 1) = -1
    rw [pow_one]
    exact cis_half q
  · have : ((2 ^ L : Nat) : ℂ) ≠ 0 := by push_cast; exact pow_ne_zero _ two_ne_zero
    field_simp

/-- **C126** (negative): a wrapper obtained before a request for more roots than it has points to freed memory. -/
theorem C126_dangling [One α] (rt : Nat → Nat → α) :
    let r := get rt (Cache.init : Cache α) 2
    (r.2.deref r.1).isSome = true ∧ r.2.deref (after rt r.1 [4]) = none := by
  have p2 : Fft.powLen 2 1 = 2 := by rw [Fft.powLen, dif_pos (by omega), Fft.powLen, dif_neg (by omega)]
  have p4 : Fft.powLen 4 2 = 4 := by rw [Fft.powLen, dif_pos (by omega), Fft.powLen, dif_neg (by omega)]
  simp [get, Cache.init, Wrap.deref, after, p2, p4, rd]

/-- **C126** (negative): the first request, for one root, returns a wrapper that reads outside the table. -/
theorem C126_one [One α] (rt : Nat → Nat → α) :
    (get rt (Cache.init : Cache α) 1).2.deref (get rt (Cache.init : Cache α) 1).1 = none := by
  simp [get, Cache.init, Wrap.deref, rd]

example : mulIdx 8 5 6 = 3 := by decide
example : cis 1 0 = 1 := by simp [cis]

end Altruct.RootWrapper
