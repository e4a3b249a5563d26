/-
Properties of the random number helpers and of the xorshift generators (C82).
-/
import Verif.Random.Model
import Mathlib.Data.Finset.Card
import Mathlib.Data.Finset.Range
import Mathlib.Data.Finset.Image
import Mathlib.Data.Fintype.EquivFin
import Mathlib.Dynamics.PeriodicPts.Lemmas
import Mathlib.Logic.Equiv.Fin.Basic

namespace Altruct.Random

variable {w : Nat}

/-- Specification: the number of values of `[mn, mx]`. -/
def width (mn mx : BitVec w) : Nat := mx.toNat - mn.toNat + 1

theorem width_toNat (mn mx : BitVec w) (h : mn ≤ mx) : (mx - mn + 1#w).toNat = width mn mx % 2 ^ w := by
  have h1 : mn.toNat ≤ mx.toNat := h
  have := mx.isLt
  have := mn.isLt
  rw [BitVec.toNat_add, BitVec.toNat_sub, BitVec.toNat_ofNat, Nat.add_mod_mod, Nat.mod_add_mod, width]
  rw [show 2 ^ w - mn.toNat + mx.toNat + 1 = mx.toNat - mn.toNat + 1 + 2 ^ w by omega, Nat.add_mod_right]

theorem width_pos (mn mx : BitVec w) : 0 < width mn mx := by simp [width]

theorem width_le (mn mx : BitVec w) : width mn mx ≤ 2 ^ w := by
  have := mx.isLt
  simp only [width]; omega

/-- C82: `integer_to_range` gives exactly the value `min + val % (max - min + 1)` of `[min, max]`. -/
theorem C82_range (val mn mx : BitVec w) (h : mn ≤ mx) :
    (toRange val mn mx).toNat = mn.toNat + val.toNat % width mn mx ∧ mn ≤ toRange val mn mx ∧ toRange val mn mx ≤ mx := by
  have h1 : mn.toNat ≤ mx.toNat := h
  have hx := mx.isLt
  have hv := val.isLt
  have hw := width_toNat mn mx h
  have key : (toRange val mn mx).toNat = mn.toNat + val.toNat % width mn mx := by
    rw [toRange]
    by_cases he : width mn mx = 2 ^ w
    · rw [he, Nat.mod_self] at hw
      rw [if_pos (BitVec.eq_of_toNat_eq (by rw [hw]; simp)), he, Nat.mod_eq_of_lt hv]
      rw [width] at he
      omega
    · have hlt : width mn mx < 2 ^ w := by have := width_le mn mx; omega
      rw [Nat.mod_eq_of_lt hlt] at hw
      have hp := width_pos mn mx
      rw [if_neg (fun hc => by rw [hc] at hw; simp at hw; omega)]
      have hm := Nat.mod_lt val.toNat hp
      rw [BitVec.toNat_add, BitVec.toNat_umod, hw, Nat.mod_eq_of_lt]
      rw [width] at hm ⊢
      omega
  have hm := Nat.mod_lt val.toNat (width_pos mn mx)
  refine ⟨key, ?_, ?_⟩
  · rw [BitVec.le_def, key]; omega
  · rw [BitVec.le_def, key]; rw [width] at hm ⊢; omega

/-- C82: `biggest_multiple(width)` is the biggest multiple of `width` that is at most `2^w`, as a word
(so `2^w` itself is returned as 0). -/
theorem C82_multiple (wd : BitVec w) (h : wd ≠ 0#w) :
    (biggestMultiple wd).toNat = (2 ^ w / wd.toNat * wd.toNat) % 2 ^ w := by
  have hp : 0 < wd.toNat := by
    rcases Nat.eq_zero_or_pos wd.toNat with h0 | h0
    · exact absurd (BitVec.eq_of_toNat_eq (by rw [h0]; simp)) h
    · exact h0
  have hlt := wd.isLt
  have h1 : (neg wd).toNat = 2 ^ w - wd.toNat := by
    rw [neg, BitVec.toNat_sub, BitVec.toNat_ofNat, Nat.zero_mod, Nat.add_zero, Nat.mod_eq_of_lt (by omega)]
  have h2 : (2 ^ w - wd.toNat) % wd.toNat = 2 ^ w % wd.toNat := (Nat.mod_eq_sub_mod (by omega)).symm
  have h3 := Nat.div_add_mod' (2 ^ w) wd.toNat
  have h4 := Nat.mod_lt (2 ^ w) hp
  rw [biggestMultiple, if_neg h]
  generalize hz : neg wd % wd = z
  have hz' : z.toNat = 2 ^ w % wd.toNat := by rw [← hz, BitVec.toNat_umod, h1, h2]
  rw [neg, BitVec.toNat_sub, hz', BitVec.toNat_ofNat, Nat.zero_mod, Nat.add_zero]
  congr 1
  omega

/-- The values that end the loop of `uniform_next` immediately are the ones below the biggest multiple. -/
theorem accept_iff (mn mx : BitVec w) (h : mn ≤ mx) (v : BitVec w) :
    (biggestMultiple (mx - mn + 1#w) ≠ 0#w ∧ biggestMultiple (mx - mn + 1#w) ≤ v) ↔
      2 ^ w / width mn mx * width mn mx ≤ v.toNat := by
  have hw := width_toNat mn mx h
  have hv := v.isLt
  have hp := width_pos mn mx
  have hle := width_le mn mx
  by_cases he : width mn mx = 2 ^ w
  · rw [he, Nat.mod_self] at hw
    have h0 : mx - mn + 1#w = 0#w := BitVec.eq_of_toNat_eq (by rw [hw]; simp)
    rw [h0, he, biggestMultiple, if_pos rfl, Nat.div_self (Nat.two_pow_pos w)]
    simp [hv]
  · rw [Nat.mod_eq_of_lt (by omega)] at hw
    have h0 : mx - mn + 1#w ≠ 0#w := fun hc => by rw [hc] at hw; simp at hw; omega
    have hm := C82_multiple _ h0
    rw [hw] at hm
    have hb : 2 ^ w / width mn mx * width mn mx ≤ 2 ^ w := Nat.div_mul_le_self _ _
    have hb' : 0 < 2 ^ w / width mn mx * width mn mx := Nat.mul_pos (Nat.div_pos hle hp) hp
    rw [BitVec.le_def, hm]
    rcases Nat.lt_or_ge (2 ^ w / width mn mx * width mn mx) (2 ^ w) with hl | hl
    · rw [Nat.mod_eq_of_lt hl] at hm ⊢
      constructor
      · exact fun hx => hx.2
      · exact fun hx => ⟨fun hc => by rw [hc] at hm; simp at hm; omega, hx⟩
    · have hq : 2 ^ w / width mn mx * width mn mx = 2 ^ w := by omega
      rw [hq, Nat.mod_self] at hm
      constructor
      · exact fun hx => absurd (BitVec.eq_of_toNat_eq (by rw [hm]; simp)) hx.1
      · intro hx; omega

/-- C82: `uniform_next` on the values `next 0, next 1, …` consumes `k + 1` values with `k < 20`, skips only values
at or above the biggest multiple, stops at the first one below it (or at the twentieth) and maps it into
`[min, max]`. -/
theorem C82_uniform_next (next : Nat → BitVec w) (mn mx : BitVec w) (h : mn ≤ mx) :
    ∃ k < 20, uniformNext next mn mx = (toRange (next k) mn mx, k + 1) ∧
      (∀ i < k, 2 ^ w / width mn mx * width mn mx ≤ (next i).toNat) ∧
      (k < 19 → (next k).toNat < 2 ^ w / width mn mx * width mn mx) := by
  have loop : ∀ d k, d + k = 20 → 0 < d →
      (∀ i < k, 2 ^ w / width mn mx * width mn mx ≤ (next i).toNat) →
      ∃ j < 20, uniformLoop next (biggestMultiple (mx - mn + 1#w)) k k = (next j, j + 1) ∧
      (∀ i < j, 2 ^ w / width mn mx * width mn mx ≤ (next i).toNat) ∧
      (j < 19 → (next j).toNat < 2 ^ w / width mn mx * width mn mx) := by
    intro d
    induction d with
    | zero => intro k _ h0; omega
    | succ d ih =>
      intro k hk _ hs
      rw [uniformLoop]
      have ha := accept_iff mn mx h (next k)
      split_ifs with hc
      · exact ih (k + 1) (by omega) (by omega) (fun i hi => by
          rcases Nat.lt_or_ge i k with h1 | h1
          · exact hs i h1
          · rw [show i = k by omega]; exact ha.mp ⟨hc.1, hc.2.1⟩)
      · refine ⟨k, by omega, rfl, hs, fun hj => ?_⟩
        by_contra hn
        have := ha.mpr (by omega)
        exact hc ⟨this.1, this.2, by omega⟩
  obtain ⟨j, hj, e, h1, h2⟩ := loop 20 0 rfl (by omega) (fun i hi => by omega)
  exact ⟨j, hj, by rw [uniformNext, e], h1, h2⟩

/-- C82: no bias: among the values that `uniform_next` accepts, every `t` of `[min, max]` is the image of exactly
`⌊2^w / (max - min + 1)⌋` of them. -/
theorem C82_uniform (mn mx t : BitVec w) (h : mn ≤ mx) (h1 : mn ≤ t) (h2 : t ≤ mx) :
    ((Finset.range (2 ^ w)).filter (fun v => v < 2 ^ w / width mn mx * width mn mx ∧
      toRange (BitVec.ofNat w v) mn mx = t)).card = 2 ^ w / width mn mx := by
  have hp := width_pos mn mx
  have h1' : mn.toNat ≤ t.toNat := h1
  have h2' : t.toNat ≤ mx.toNat := h2
  have hr : t.toNat - mn.toNat < width mn mx := by rw [width]; omega
  have hinj : Function.Injective (fun q => q * width mn mx + (t.toNat - mn.toNat)) := fun a b hab => by
    simp only [Nat.add_right_cancel_iff] at hab
    exact Nat.eq_of_mul_eq_mul_right hp hab
  rw [show (Finset.range (2 ^ w)).filter (fun v => v < 2 ^ w / width mn mx * width mn mx ∧
      toRange (BitVec.ofNat w v) mn mx = t) =
      (Finset.range (2 ^ w / width mn mx)).image (fun q => q * width mn mx + (t.toNat - mn.toNat)) from ?_,
    Finset.card_image_of_injective _ hinj, Finset.card_range]
  ext v
  simp only [Finset.mem_filter, Finset.mem_range, Finset.mem_image]
  have ht : ∀ v < 2 ^ w, (toRange (BitVec.ofNat w v) mn mx = t ↔ v % width mn mx = t.toNat - mn.toNat) := by
    intro v hv
    have := (C82_range (BitVec.ofNat w v) mn mx h).1
    rw [BitVec.toNat_ofNat, Nat.mod_eq_of_lt hv] at this
    rw [← BitVec.toNat_inj, this]
    omega
  constructor
  · rintro ⟨hv, hlt, he⟩
    rw [ht v hv] at he
    refine ⟨v / width mn mx, (Nat.div_lt_iff_lt_mul hp).mpr hlt, ?_⟩
    rw [← he]
    exact Nat.div_add_mod' v _
  · rintro ⟨q, hq, rfl⟩
    have hlt : q * width mn mx + (t.toNat - mn.toNat) < 2 ^ w / width mn mx * width mn mx := by
      have : (q + 1) * width mn mx ≤ 2 ^ w / width mn mx * width mn mx := Nat.mul_le_mul_right _ hq
      rw [Nat.add_mul, Nat.one_mul] at this
      omega
    have hv := lt_of_lt_of_le hlt (Nat.div_mul_le_self (2 ^ w) (width mn mx))
    refine ⟨hv, hlt, (ht _ hv).mpr ?_⟩
    rw [Nat.mul_add_mod', Nat.mod_eq_of_lt hr]

/-- The die roll from 8-bit words: 252 = 42 * 6, a word at or above it is skipped. -/
example : uniformNext (w := 8) (fun i => if i = 0 then 253#8 else 250#8) 1#8 6#8 = (5#8, 2) ∧
    biggestMultiple 6#8 = 252#8 ∧ biggestMultiple 4#8 = 0#8 ∧ width 1#8 6#8 = 6 := by decide +kernel

/-! ### xorshift -/

/-- The only word equal to its own right shift is 0. -/
theorem eq_shr (k : Nat) (hk : 0 < k) (d : BitVec w) (h : d = d >>> k) : d = 0#w := by
  have key : ∀ n i, w ≤ i + n → d.getLsbD i = false := by
    intro n
    induction n with
    | zero => intro i hi; exact BitVec.getLsbD_of_ge _ _ (by omega)
    | succ n ih =>
      intro i hi
      rw [h, BitVec.getLsbD_ushiftRight]
      exact ih _ (by omega)
  exact BitVec.eq_of_getLsbD_eq (fun i _ => by rw [key w i (by omega)]; simp)

theorem eq_shl (k : Nat) (hk : 0 < k) (d : BitVec w) (h : d = d <<< k) : d = 0#w := by
  have key : ∀ n i, i < n → d.getLsbD i = false := by
    intro n
    induction n with
    | zero => intro i hi; omega
    | succ n ih =>
      intro i hi
      rw [h, BitVec.getLsbD_shiftLeft]
      rcases Nat.lt_or_ge i k with h1 | h1
      · simp [h1]
      · rw [ih _ (by omega)]; simp
  exact BitVec.eq_of_getLsbD_eq (fun i hi => by rw [key w i hi]; simp)

theorem xor_cancel {a b c d : BitVec w} (h : a ^^^ b = c ^^^ d) : a ^^^ c = b ^^^ d := by
  have e : a ^^^ c = (a ^^^ b) ^^^ (c ^^^ d) ^^^ (b ^^^ d) := by
    apply BitVec.eq_of_getLsbD_eq
    intro i _
    simp only [BitVec.getLsbD_xor]
    cases a.getLsbD i <;> cases b.getLsbD i <;> cases c.getLsbD i <;> cases d.getLsbD i <;> rfl
  rw [e, h, BitVec.xor_self, BitVec.zero_xor]

theorem eq_of_xor {a b : BitVec w} (h : a ^^^ b = 0#w) : a = b := by
  have : a ^^^ b = b ^^^ b := by rw [h, BitVec.xor_self]
  have e := xor_cancel (a := a) (b := b) (c := b) (d := b) this
  apply BitVec.eq_of_getLsbD_eq
  intro i _
  have := congrArg (fun z => z.getLsbD i) h
  simp only [BitVec.getLsbD_xor] at this
  revert this
  cases a.getLsbD i <;> cases b.getLsbD i <;> simp

theorem shr_inj (k : Nat) (hk : 0 < k) : Function.Injective (fun x : BitVec w => x ^^^ (x >>> k)) := by
  intro x y h
  have e := xor_cancel h
  rw [← BitVec.ushiftRight_xor_distrib] at e
  exact eq_of_xor (eq_shr k hk _ e)

theorem shl_inj (k : Nat) (hk : 0 < k) : Function.Injective (fun x : BitVec w => x ^^^ (x <<< k)) := by
  intro x y h
  have e := xor_cancel h
  rw [← BitVec.shiftLeft_xor_distrib] at e
  exact eq_of_xor (eq_shl k hk _ e)

theorem step64_inj : Function.Injective step64 := by
  intro x y h
  have h1 := shr_inj 27 (by omega) h
  have h2 := shl_inj 25 (by omega) h1
  exact shr_inj 12 (by omega) h2

theorem mul_inj (c c' : BitVec w) (hc : c * c' = 1#w) : Function.Injective (fun x : BitVec w => x * c) := by
  intro x y h
  have : x * c * c' = y * c * c' := by rw [show x * c = y * c from h]
  rwa [BitVec.mul_assoc, BitVec.mul_assoc, hc, BitVec.mul_one, BitVec.mul_one] at this

theorem finite_bitVec (n : Nat) : Finite (BitVec n) :=
  Finite.of_injective (fun x : BitVec n => x.toFin) (fun _ _ h => BitVec.eq_of_toFin_eq h)

/-- C82: `xorshift_64star::next` permutes the states, and the result determines the new state (so two different
states never give the same number).  From a nonzero seed no state and no result is ever 0, and the sequence of
states is purely periodic: the seed itself comes back. -/
theorem C82_xorshift64 :
    Function.Bijective step64 ∧ Function.Bijective (fun x => (next64 x).1) ∧
    (∀ x, x ≠ 0#64 → ∀ n, step64^[n] x ≠ 0#64 ∧ (next64 (step64^[n] x)).1 ≠ 0#64) ∧
    (∀ x, ∃ n, 0 < n ∧ step64^[n] x = x) := by
  have := finite_bitVec 64
  have hmul := mul_inj 2685821657736338717#64 6415128727920758069#64 (by decide +kernel)
  have hout : Function.Injective (fun x => (next64 x).1) := hmul.comp step64_inj
  have h0 : step64 0#64 = 0#64 := by decide +kernel
  have hne : ∀ x, x ≠ 0#64 → ∀ n, step64^[n] x ≠ 0#64 := by
    intro x hx n
    induction n with
    | zero => exact hx
    | succ n ih =>
      rw [Function.iterate_succ_apply']
      exact fun hc => ih (step64_inj (hc.trans h0.symm))
  refine ⟨Finite.injective_iff_bijective.mp step64_inj, Finite.injective_iff_bijective.mp hout, fun x hx n => ⟨hne x hx n, fun hc => ?_⟩, fun x => ?_⟩
  · exact hne x hx n (hout (hc.trans (by decide +kernel : (0#64) = (next64 0#64).1)))
  · obtain ⟨n, hn, hp⟩ := step64_inj.mem_periodicPts x
    exact ⟨n, hn, hp⟩

/-- Valid states of `xorshift_1024star`: sixteen words and a position. -/
def Ok (t : St) : Prop := t.s.length = 16 ∧ t.p < 16

/-- Specification: some word of the state is not zero. -/
def NonZero (t : St) : Prop := ∃ x ∈ t.s, x ≠ 0#64

theorem next1024_eq (t : St) (h : Ok t) : ∃ a b, t.s[t.p]? = some a ∧ t.s[(t.p + 1) % 16]? = some b ∧
    next1024 t = some (((a ^^^ (a >>> 30)) ^^^ ((b ^^^ (b <<< 31)) ^^^ ((b ^^^ (b <<< 31)) >>> 11))) * 1181783497276652981#64,
      ⟨t.s.set ((t.p + 1) % 16) ((a ^^^ (a >>> 30)) ^^^ ((b ^^^ (b <<< 31)) ^^^ ((b ^^^ (b <<< 31)) >>> 11))), (t.p + 1) % 16⟩) := by
  obtain ⟨hl, hp⟩ := h
  have hm : (t.p + 1) &&& 15 = (t.p + 1) % 16 := Nat.and_two_pow_sub_one_eq_mod (t.p + 1) 4
  have hq : (t.p + 1) % 16 < 16 := Nat.mod_lt _ (by omega)
  refine ⟨t.s[t.p]'(by omega), t.s[(t.p + 1) % 16]'(by omega), List.getElem?_eq_getElem _, List.getElem?_eq_getElem _, ?_⟩
  rw [next1024]
  simp only [rd, wr, hm, List.getElem?_eq_getElem (show t.p < t.s.length by omega),
    List.getElem?_eq_getElem (show (t.p + 1) % 16 < t.s.length by omega), Option.bind_eq_bind, Option.bind_some,
    if_pos (show (t.p + 1) % 16 < t.s.length by omega), List.getElem?_set_self (show (t.p + 1) % 16 < t.s.length by omega)]

/-- C82: `xorshift_1024star::next` never reads outside of its state, permutes the valid states (it is
injective on a finite set), and never reaches the all-zero state from another one. -/
theorem C82_xorshift1024 (t : St) (h : Ok t) :
    ∃ r t', next1024 t = some (r, t') ∧ Ok t' ∧ (NonZero t → NonZero t') ∧
      (∀ u r', Ok u → next1024 u = some (r', t') → u = t) := by
  obtain ⟨a, b, ha, hb, e⟩ := next1024_eq t h
  have hq : (t.p + 1) % 16 < 16 := Nat.mod_lt _ (by omega)
  have hinj : ∀ b b' : BitVec 64, (b ^^^ (b <<< 31)) ^^^ ((b ^^^ (b <<< 31)) >>> 11) =
      (b' ^^^ (b' <<< 31)) ^^^ ((b' ^^^ (b' <<< 31)) >>> 11) → b = b' := fun b b' hh =>
    shl_inj 31 (by omega) (shr_inj 11 (by omega) hh)
  refine ⟨_, _, e, ⟨by rw [List.length_set]; exact h.1, hq⟩, ?_, ?_⟩
  · rintro ⟨x, hx, hx0⟩
    obtain ⟨i, hi, rfl⟩ := List.mem_iff_getElem.mp hx
    by_cases hiq : i = (t.p + 1) % 16
    · by_cases ha0 : a = 0#64
      · refine ⟨_, List.mem_iff_getElem?.mpr ⟨(t.p + 1) % 16, List.getElem?_set_self (by rw [h.1]; exact hq)⟩, ?_⟩
        subst hiq
        rw [List.getElem?_eq_getElem hi] at hb
        injection hb with hb
        intro hc
        rw [ha0] at hc
        rw [BitVec.zero_ushiftRight, BitVec.xor_self, BitVec.zero_xor] at hc
        exact hx0 (hb.trans (hinj b 0#64 (by rw [hc]; decide +kernel)))
      · refine ⟨a, List.mem_iff_getElem?.mpr ⟨t.p, ?_⟩, ha0⟩
        rw [List.getElem?_set_ne (by have := h.2; omega), ha]
    · refine ⟨t.s[i], List.mem_iff_getElem?.mpr ⟨i, ?_⟩, hx0⟩
      rw [List.getElem?_set_ne (fun hc => hiq hc.symm), List.getElem?_eq_getElem hi]
  · intro u r' hu eu
    obtain ⟨a', b', ha', hb', e'⟩ := next1024_eq u hu
    rw [e'] at eu
    simp only [Option.some.injEq, Prod.mk.injEq, St.mk.injEq] at eu
    obtain ⟨-, hs, hpp⟩ := eu
    have hp : u.p = t.p := by have := hu.2; have := h.2; omega
    rw [hp] at ha' hb' hs
    have hoff : ∀ i, i ≠ (t.p + 1) % 16 → u.s[i]? = t.s[i]? := fun i hi => by
      have := congrArg (fun l : List (BitVec 64) => l[i]?) hs
      simpa only [List.getElem?_set_ne (fun hc => hi hc.symm)] using this
    have hon := congrArg (fun l : List (BitVec 64) => l[(t.p + 1) % 16]?) hs
    simp only [List.getElem?_set_self (show (t.p + 1) % 16 < u.s.length by rw [hu.1]; exact hq),
      List.getElem?_set_self (show (t.p + 1) % 16 < t.s.length by rw [h.1]; exact hq), Option.some.injEq] at hon
    have haa : a' = a := by
      have := hoff t.p (by have := h.2; omega)
      rw [ha, ha'] at this
      exact Option.some.inj this
    have hbb : b' = b := by
      rw [haa] at hon
      apply hinj
      have := congrArg (fun z => (a ^^^ (a >>> 30)) ^^^ z) hon
      simpa only [← BitVec.xor_assoc, BitVec.xor_self, BitVec.zero_xor] using this
    have hss : u.s = t.s := by
      apply List.ext_getElem?
      intro i
      by_cases hi : i = (t.p + 1) % 16
      · rw [hi, hb, hb', hbb]
      · exact hoff i hi
    cases u; cases t
    simp only at hss hp
    rw [hss, hp]

theorem seedLoop_length (c : Nat) (x : BitVec 64) : (seedLoop c x).length = c := by
  induction c generalizing x with
  | zero => rfl
  | succ c ih => rw [seedLoop, List.length_cons, ih]

/-- C82: every seed gives a valid state; a nonzero seed gives a state that is not everywhere zero (in fact no
word of it is zero).  `seed(uint64_t*)` copies the sixteen words. -/
theorem C82_seed (x : BitVec 64) :
    Ok (seed64 x) ∧ (x ≠ 0#64 → ∀ y ∈ (seed64 x).s, y ≠ 0#64) ∧
    (∀ l : List (BitVec 64), 16 ≤ l.length → ∃ t, seedArr l = some t ∧ Ok t ∧ ∀ i < 16, t.s[i]? = l[i]?) := by
  refine ⟨⟨seedLoop_length 16 x, by simp [seed64]⟩, fun hx => ?_, fun l hl => ?_⟩
  · have key : ∀ c n, ∀ y ∈ seedLoop c (step64^[n] x), y ≠ 0#64 := by
      intro c
      induction c with
      | zero => intro n y hy; simp [seedLoop] at hy
      | succ c ih =>
        intro n y hy
        rw [seedLoop, List.mem_cons] at hy
        rcases hy with rfl | hy
        · exact (C82_xorshift64.2.2.1 x hx n).2
        · refine ih (n + 1) y ?_
          rw [Function.iterate_succ_apply']
          exact hy
    exact key 16 0
  · refine ⟨_, by rw [seedArr, if_pos hl], ⟨by rw [List.length_take]; omega, by simp⟩, fun i hi => ?_⟩
    rw [List.getElem?_take_of_lt hi]

/-- Seeded with 1, the first two numbers of each generator. -/
example : (next64 1#64).1 = 5180492295206395165#64 ∧ (next64 (next64 1#64).2).1 = 12380297144915551517#64 ∧
    (next1024 (seed64 1#64)).isSome ∧ NonZero (seed64 1#64) := by
  refine ⟨by decide +kernel, by decide +kernel, by decide +kernel, ?_⟩
  exact ⟨_, List.mem_cons_self, (C82_seed 1#64).2.1 (by decide) _ List.mem_cons_self⟩

/-- A zero seed makes both generators return zero for ever (the comments at xorshift.h:75 and 178 warn of it). -/
theorem C82_zero_seed : (∀ n, (next64 (step64^[n] 0#64)).1 = 0#64) ∧ ¬ NonZero (seed64 0#64) := by
  have h0 : step64 0#64 = 0#64 := by decide +kernel
  refine ⟨fun n => ?_, ?_⟩
  · rw [Function.iterate_fixed h0]; decide +kernel
  · rintro ⟨x, hx, hx0⟩
    have : seed64 0#64 = ⟨List.replicate 16 0#64, 0⟩ := by decide +kernel
    rw [this] at hx
    exact hx0 (List.eq_of_mem_replicate hx)

end Altruct.Random
