/-
C11: the prime sieve.
-/
import Verif.Primes.SieveModel
import Mathlib.Data.Nat.Prime.Basic
import Mathlib.Data.Nat.Sqrt
import Mathlib.Tactic.Ring

namespace Altruct.Primes

/-- Specification: the primes below `n` in increasing order. -/
def primesBelow (n : Nat) : List Nat := (List.range n).filter fun k => decide k.Prime

theorem mem_primesBelow {n k : Nat} : k ∈ primesBelow n ↔ k < n ∧ k.Prime := by
  simp [primesBelow]

theorem primesBelow_sorted (n : Nat) : (primesBelow n).Pairwise (· < ·) :=
  List.Pairwise.filter _ List.pairwise_lt_range

theorem primesBelow_succ (n : Nat) : primesBelow (n + 1) = primesBelow n ++ if n.Prime then [n] else [] := by
  unfold primesBelow
  rw [List.range_succ, List.filter_append]
  by_cases h : n.Prime <;> simp [h]

theorem primesBelow_length_mono {a b : Nat} (h : a ≤ b) : (primesBelow a).length ≤ (primesBelow b).length := by
  induction b, h using Nat.le_induction with
  | base => exact le_refl _
  | succ b _ ih => rw [primesBelow_succ, List.length_append]; omega

theorem primesBelow_length_lt (n : Nat) (h : 0 < n) : (primesBelow n).length < n := by
  induction n, h using Nat.le_induction with
  | base => decide
  | succ n _ ih =>
    rw [primesBelow_succ, List.length_append]
    split <;> simp <;> omega

variable {σ : Type}

/-- What is used of a memory layout: `R s g pl lo` says that the flags from `lo` on are `g`
and the first entries of `p` are `pl`. -/
structure Layout (M : Mem σ) (n cap : Nat) (R : σ → (Nat → Nat) → List Nat → Nat → Prop) : Prop where
  rq : ∀ {s g pl lo j}, R s g pl lo → lo ≤ j → j < n → M.rq s j = some (g j)
  wq : ∀ {s g pl lo j} (x : Nat), R s g pl lo → lo ≤ j → j < n →
    ∃ s', M.wq s j x = some s' ∧ R s' (Function.update g j x) pl lo
  wp : ∀ {s g pl lo} (x : Nat), R s g pl lo → pl.length < lo ∨ n = 0 → lo ≤ n → pl.length ≤ cap → x < 2 ^ 32 →
    ∃ s', M.wp s pl.length x = some s' ∧ R s' g (pl ++ [x]) lo
  mono : ∀ {s g pl lo lo'}, R s g pl lo → lo ≤ lo' → R s g pl lo'
  congr : ∀ {s g g' pl lo}, R s g pl lo → (∀ j, j < n → g j = g' j) → R s g' pl lo

variable {M : Mem σ} {n cap : Nat} {R : σ → (Nat → Nat) → List Nat → Nat → Prop}

theorem initLoop_spec (L : Layout M n cap R) (k : Nat) : ∀ {s : σ} {g : Nat → Nat} {pl : List Nat} (i : Nat),
    n - i = k → R s g pl 0 →
    ∃ s', initLoop M n s i = some s' ∧ R s' (fun j => if i ≤ j then 1 else g j) pl 0 := by
  induction k with
  | zero =>
    intro s g pl i hk h
    rw [initLoop, if_neg (by omega)]
    exact ⟨s, rfl, L.congr h (fun j hj => by rw [if_neg (by omega)])⟩
  | succ k ih =>
    intro s g pl i hk h
    rw [initLoop, if_pos (by omega)]
    obtain ⟨s1, e1, h1⟩ := L.wq 1 h (Nat.zero_le i) (by omega)
    rw [e1]
    obtain ⟨s2, e2, h2⟩ := ih (i + 1) (by omega) h1
    refine ⟨s2, e2, L.congr h2 (fun j _ => ?_)⟩
    by_cases hj : j = i
    · subst hj; simp
    · rw [Function.update_of_ne hj]
      by_cases h3 : i ≤ j
      · rw [if_pos (by omega), if_pos h3]
      · rw [if_neg (by omega), if_neg h3]

theorem crossLoop_spec (L : Layout M n cap R) {lim i : Nat} (hi : 0 < i) (hlim : n + i ≤ lim + 1) (k : Nat) :
    ∀ {s : σ} {g : Nat → Nat} {pl : List Nat} {lo : Nat} (j : Nat),
    n - j = k → i ∣ j → lo ≤ j → R s g pl lo →
    ∃ s', crossLoop M lim n i s j = some s' ∧ R s' (fun x => if j ≤ x ∧ i ∣ x then 0 else g x) pl lo := by
  induction k using Nat.strong_induction_on with
  | _ k ih =>
    intro s g pl lo j hk hd hlo h
    rw [crossLoop]
    by_cases hj : j < n
    · rw [if_pos hj]
      obtain ⟨s1, e1, h1⟩ := L.wq 0 h hlo hj
      rw [e1]
      simp only
      rw [if_neg (by omega)]
      obtain ⟨s2, e2, h2⟩ := ih (n - (j + i)) (by omega) (j + i) rfl (Nat.dvd_add hd (dvd_refl i)) (by omega) h1
      refine ⟨s2, e2, L.congr h2 (fun x _ => ?_)⟩
      by_cases hx : x = j
      · subst hx; rw [if_neg (by omega), Function.update_self, if_pos ⟨le_refl _, hd⟩]
      · rw [Function.update_of_ne hx]
        by_cases hc : j ≤ x ∧ i ∣ x
        · have : j + i ≤ x := by
            obtain ⟨hc1, a, rfl⟩ := hc
            obtain ⟨b, rfl⟩ := hd
            have hlt : i * b < i * a := by omega
            have := Nat.lt_of_mul_lt_mul_left hlt
            have := Nat.mul_le_mul_left i (show b + 1 ≤ a by omega)
            rw [Nat.mul_add, Nat.mul_one] at this
            exact this
          rw [if_pos ⟨this, hc.2⟩, if_pos hc]
        · rw [if_neg (fun hc' => hc ⟨by omega, hc'.2⟩), if_neg hc]
    · rw [if_neg hj]
      exact ⟨s, rfl, L.congr h (fun x hx => by rw [if_neg (by omega)])⟩

/-- `j` is crossed out by a prime below `i`. -/
def Crossed (i j : Nat) : Prop := ∃ p, Nat.Prime p ∧ p < i ∧ p ∣ j ∧ p * p ≤ j

open Classical in
/-- The flags when all primes below `i` have been processed. -/
noncomputable def flag (i j : Nat) : Nat :=
  if j < 2 then 0 else if Crossed i j then 0 else 1

theorem flag_self (i : Nat) (hi : 2 ≤ i) : flag i i = if i.Prime then 1 else 0 := by
  unfold flag
  rw [if_neg (by omega)]
  by_cases hp : i.Prime
  · rw [if_neg, if_pos hp]
    rintro ⟨p, h1, h2, h3, -⟩
    rcases (Nat.dvd_prime hp).mp h3 with h | h
    · exact h1.one_lt.ne' h
    · omega
  · rw [if_pos, if_neg hp]
    have h2 : i.minFac * i.minFac ≤ i := by rw [← pow_two]; exact Nat.minFac_sq_le_self (by omega) hp
    have h1 : i.minFac.Prime := Nat.minFac_prime (by omega)
    refine ⟨i.minFac, h1, ?_, Nat.minFac_dvd i, h2⟩
    by_contra hc
    have := Nat.mul_le_mul (show i ≤ i.minFac by omega) (h1.two_le)
    omega

theorem flag_le {i j : Nat} (h : j ≤ i) : flag i j = if j.Prime then 1 else 0 := by
  by_cases hj : 2 ≤ j
  · rw [← flag_self j hj]
    unfold flag
    have : Crossed i j ↔ Crossed j j := by
      constructor
      · rintro ⟨p, h1, h2, h3, h4⟩
        refine ⟨p, h1, ?_, h3, h4⟩
        have := Nat.mul_le_mul_left p h1.two_le
        have := h1.pos
        omega
      · rintro ⟨p, h1, h2, h3, h4⟩
        exact ⟨p, h1, by omega, h3, h4⟩
    by_cases h3 : Crossed j j
    · rw [if_pos h3, if_pos (this.mpr h3)]
    · rw [if_neg h3, if_neg (fun hc => h3 (this.mp hc))]
  · unfold flag
    rw [if_pos (by omega), if_neg]
    intro hp
    exact hj hp.two_le

theorem flag_not_prime {i : Nat} (h : ¬ i.Prime) (j : Nat) : flag (i + 1) j = flag i j := by
  unfold flag
  have : Crossed (i + 1) j ↔ Crossed i j := by
    constructor
    · rintro ⟨p, h1, h2, h3⟩
      refine ⟨p, h1, ?_, h3⟩
      rcases Nat.lt_succ_iff_lt_or_eq.mp h2 with h2 | rfl
      · exact h2
      · exact absurd h1 h
    · rintro ⟨p, h1, h2, h3⟩
      exact ⟨p, h1, by omega, h3⟩
  by_cases h3 : Crossed i j
  · rw [if_pos h3, if_pos (this.mpr h3)]
  · rw [if_neg h3, if_neg (fun hc => h3 (this.mp hc))]

theorem flag_prime {i : Nat} (h : i.Prime) (j : Nat) :
    flag (i + 1) j = if i * i ≤ j ∧ i ∣ j then 0 else flag i j := by
  unfold flag
  have : Crossed (i + 1) j ↔ (i * i ≤ j ∧ i ∣ j) ∨ Crossed i j := by
    constructor
    · rintro ⟨p, h1, h2, h3, h4⟩
      rcases Nat.lt_succ_iff_lt_or_eq.mp h2 with h2 | rfl
      · exact Or.inr ⟨p, h1, h2, h3, h4⟩
      · exact Or.inl ⟨h4, h3⟩
    · rintro (⟨h1, h2⟩ | ⟨p, h1, h2, h3⟩)
      · exact ⟨i, h, by omega, h2, h1⟩
      · exact ⟨p, h1, by omega, h3⟩
  have h2 := h.two_le
  by_cases h1 : i * i ≤ j ∧ i ∣ j
  · rw [if_pos h1, if_pos (this.mpr (Or.inl h1)), ite_self]
  · rw [if_neg h1]
    by_cases h3 : Crossed i j
    · rw [if_pos h3, if_pos (this.mpr (Or.inr h3))]
    · rw [if_neg h3, if_neg (fun hc => (this.mp hc).elim h1 h3)]

theorem sieveLoop_spec (L : Layout M n cap R) {lim : Nat} (hcap : (primesBelow n).length ≤ cap)
    (hlim : n + n.sqrt ≤ lim + 1) (h32 : n ≤ 2 ^ 32) (k : Nat) :
    ∀ {s : σ} {g : Nat → Nat} (i : Nat), n - i = k → 2 ≤ i → i ≤ n → (∀ j, j < n → g j = flag i j) →
    R s g (primesBelow i) i →
    ∃ s' g', sieveLoop M lim n s (primesBelow i).length i = some (s', (primesBelow n).length) ∧
      R s' g' (primesBelow n) n ∧ ∀ j, j < n → g' j = flag n j := by
  induction k with
  | zero =>
    intro s g i hk hi hin hg h
    have : i = n := by omega
    subst this
    rw [sieveLoop, if_neg (by omega)]
    exact ⟨s, g, rfl, h, hg⟩
  | succ k ih =>
    intro s g i hk hi hin hg h
    rw [sieveLoop, if_pos (by omega), L.rq h (le_refl i) (by omega), hg i (by omega), flag_self i hi]
    simp only
    by_cases hp : i.Prime
    · rw [if_pos hp, if_neg (by omega)]
      have hlen := primesBelow_length_lt i (by omega)
      have hlen2 := primesBelow_length_mono (show i ≤ n by omega)
      obtain ⟨s1, e1, h1⟩ := L.wp i h (Or.inl hlen) (by omega) (by omega) (by omega)
      rw [e1]
      simp only
      have hs : primesBelow (i + 1) = primesBelow i ++ [i] := by rw [primesBelow_succ, if_pos hp]
      have hl : (primesBelow i).length + 1 = (primesBelow (i + 1)).length := by rw [hs]; simp
      rw [hl]
      have hkey : ∀ j, (if i * i ≤ j ∧ i ∣ j then 0 else g j) = if i * i ≤ j ∧ i ∣ j then 0 else g j := fun _ => rfl
      by_cases hc : i > n / i
      · rw [if_pos hc]
        have hsq : n < i * i := (Nat.div_lt_iff_lt_mul hp.pos).mp hc
        refine ih (i + 1) (by omega) (by omega) (by omega) ?_ (by rw [hs]; exact L.mono h1 (by omega))
        intro j hj
        rw [hg j hj, flag_prime hp, if_neg (by omega)]
      · rw [if_neg hc]
        have hle : i ≤ n / i := by omega
        have hsq : i * i ≤ n := (Nat.le_div_iff_mul_le hp.pos).mp hle
        have hii : i + 1 ≤ i * i := by
          have := Nat.mul_le_mul_left i hp.two_le
          omega
        obtain ⟨s2, e2, h2⟩ := crossLoop_spec L (lim := lim) hp.pos
          (by have := Nat.le_sqrt.mpr hsq; omega) _ (i * i) rfl (Nat.dvd_mul_left i i) hii
          (L.mono h1 (show i ≤ i + 1 by omega))
        rw [e2]
        simp only
        refine ih (i + 1) (by omega) (by omega) (by omega) ?_ (by rw [hs]; exact h2)
        intro j hj
        rw [flag_prime hp, hg j hj]
    · rw [if_neg hp, if_pos rfl]
      have hs : primesBelow (i + 1) = primesBelow i := by rw [primesBelow_succ, if_neg hp, List.append_nil]
      rw [← hs]
      refine ih (i + 1) (by omega) (by omega) (by omega) ?_ (by rw [hs]; exact L.mono h (by omega))
      intro j hj
      rw [hg j hj, flag_not_prime hp]

theorem primes_spec (L : Layout M n cap R) {lim : Nat} (hcap : (primesBelow n).length ≤ cap)
    (hlim : n + n.sqrt ≤ lim + 1) (h32 : n ≤ 2 ^ 32) {s : σ} {g : Nat → Nat} (h : R s g [] 0) :
    ∃ s' g', primes M lim n s = some (s', (primesBelow n).length) ∧
      R s' g' (primesBelow n ++ [0]) n ∧ ∀ j, j < n → g' j = if j.Prime then 1 else 0 := by
  unfold primes
  obtain ⟨s1, g1, e1, h1, c1⟩ : ∃ s1 g1, (if n > 0 then M.wq s 0 0 else some s) = some s1 ∧ R s1 g1 [] 0 ∧
      (0 < n → g1 0 = 0) := by
    by_cases hn : n > 0
    · obtain ⟨s1, e1, h1⟩ := L.wq 0 h (le_refl 0) hn
      exact ⟨s1, _, by rw [if_pos hn, e1], h1, fun _ => Function.update_self _ _ _⟩
    · exact ⟨s, g, by rw [if_neg hn], h, fun h => absurd h hn⟩
  obtain ⟨s2, g2, e2, h2, c2, c2'⟩ : ∃ s2 g2, (if n > 1 then M.wq s1 1 0 else some s1) = some s2 ∧ R s2 g2 [] 0 ∧
      (0 < n → g2 0 = 0) ∧ (1 < n → g2 1 = 0) := by
    by_cases hn : n > 1
    · obtain ⟨s1, e1, h1⟩ := L.wq 0 h1 (Nat.zero_le 1) hn
      refine ⟨s1, _, by rw [if_pos hn, e1], h1, fun h0 => ?_, fun _ => Function.update_self _ _ _⟩
      rw [Function.update_of_ne (by omega)]; exact c1 h0
    · exact ⟨s1, g1, by rw [if_neg hn], h1, c1, fun h => absurd h hn⟩
  obtain ⟨s3, e3, h3⟩ := initLoop_spec L _ 2 rfl h2
  rw [e1, Option.bind_some, e2, Option.bind_some, e3, Option.bind_some]
  obtain ⟨s4, g4, e4, h4, c4⟩ : ∃ s4 g4, sieveLoop M lim n s3 0 2 = some (s4, (primesBelow n).length) ∧
      R s4 g4 (primesBelow n) n ∧ ∀ j, j < n → g4 j = if j.Prime then 1 else 0 := by
    by_cases hn : 2 ≤ n
    · obtain ⟨s4, g4, e4, h4, c4⟩ := sieveLoop_spec L hcap hlim h32 _ 2 rfl (le_refl 2) hn
        (g := fun j => if 2 ≤ j then 1 else g2 j) (by
          intro j hj
          unfold flag
          by_cases h2 : j < 2
          · rw [if_neg (by omega), if_pos h2]
            rcases (show j = 0 ∨ j = 1 by omega) with rfl | rfl
            · exact c2 (by omega)
            · exact c2' (by omega)
          · rw [if_pos (by omega), if_neg h2, if_neg]
            rintro ⟨p, h5, h6, -⟩
            have := h5.two_le
            omega) (L.mono h3 (show 0 ≤ 2 by omega))
      refine ⟨s4, g4, e4, h4, fun j hj => ?_⟩
      rw [c4 j hj, flag_le (by omega)]
    · have hp : primesBelow n = [] := by
        rcases (show n = 0 ∨ n = 1 by omega) with rfl | rfl <;> decide
      rw [sieveLoop, if_neg (by omega), hp]
      refine ⟨s3, _, rfl, L.mono h3 (Nat.zero_le n), fun j hj => ?_⟩
      rw [if_neg (by omega), if_neg (fun h => by have := Nat.Prime.two_le h; omega)]
      have : j = 0 := by omega
      subst this
      exact c2 (by omega)
  rw [e4, Option.bind_some]
  obtain ⟨s5, e5, h5⟩ := L.wp 0 h4 (by
    by_cases hn : n = 0
    · exact Or.inr hn
    · exact Or.inl (primesBelow_length_lt n (by omega))) (le_refl n) hcap (by omega)
  exact ⟨s5, g4, by simp only [e5, Option.map_some], h5, c4⟩

/-! ### The three layouts -/

theorem layout_both (n cap : Nat) (p0 q0 : List Nat) (hp : cap < p0.length) (hq : n ≤ q0.length) :
    Layout both n cap (fun s g pl _ => s.1 = pl ++ p0.drop pl.length ∧ pl.length ≤ p0.length ∧
      s.2.length = q0.length ∧ s.2.drop n = q0.drop n ∧ ∀ j, j < n → s.2[j]? = some (g j)) where
  rq := by
    rintro s g pl lo j ⟨-, -, -, -, h⟩ _ hj
    exact h j hj
  wq := by
    rintro s g pl lo j x ⟨h1, h2, h3, h4, h5⟩ _ hj
    refine ⟨(s.1, s.2.set j x), ?_, h1, h2, ?_, ?_, ?_⟩
    · simp only [both, wr]
      rw [if_pos (by omega)]; rfl
    · simpa using h3
    · simp only
      rw [List.drop_set_of_lt hj]
      exact h4
    · intro i hi
      simp only
      by_cases hij : i = j
      · subst hij; rw [List.getElem?_set_self (by omega), Function.update_self]
      · rw [List.getElem?_set_ne (Ne.symm hij), Function.update_of_ne hij]; exact h5 i hi
  wp := by
    rintro s g pl lo x ⟨h1, h2, h3, h4, h5⟩ _ _ hc _
    have hlt : pl.length < p0.length := by omega
    refine ⟨(pl ++ [x] ++ p0.drop (pl.length + 1), s.2), ?_, by simp, by simp; omega, h3, h4, h5⟩
    simp only [both, wr]
    rw [if_pos (by rw [h1]; simp; omega), Option.map_some, Option.some.injEq, Prod.mk.injEq]
    refine ⟨?_, rfl⟩
    rw [h1, List.drop_eq_getElem_cons hlt, List.set_append_right _ _ (le_refl _), Nat.sub_self, List.set_cons_zero,
      List.append_assoc]
    rfl
  mono := fun h _ => h
  congr := by
    rintro s g g' pl lo ⟨h1, h2, h3, h4, h5⟩ hg
    exact ⟨h1, h2, h3, h4, fun j hj => by rw [h5 j hj, hg j hj]⟩

theorem layout_onlyQ (n : Nat) (q0 : List Nat) (hq : n ≤ q0.length) :
    Layout onlyQ n n (fun s g _ _ => 
      s.length = q0.length ∧ s.drop n = q0.drop n ∧ ∀ j, j < n → s[j]? = some (g j)) where
  rq := by
    rintro s g pl lo j ⟨-, -, h⟩ _ hj
    exact h j hj
  wq := by
    rintro s g pl lo j x ⟨h3, h4, h5⟩ _ hj
    refine ⟨s.set j x, ?_, ?_, ?_, ?_⟩
    · simp only [onlyQ, wr]
      rw [if_pos (by omega)]
    · simpa using h3
    · rw [List.drop_set_of_lt hj]
      exact h4
    · intro i hi
      by_cases hij : i = j
      · subst hij; rw [List.getElem?_set_self (by omega), Function.update_self]
      · rw [List.getElem?_set_ne (Ne.symm hij), Function.update_of_ne hij]; exact h5 i hi
  wp := by
    rintro s g pl lo x h _ _ _ _
    exact ⟨s, rfl, h⟩
  mono := fun h _ => h
  congr := by
    rintro s g g' pl lo ⟨h3, h4, h5⟩ hg
    exact ⟨h3, h4, fun j hj => by rw [h5 j hj, hg j hj]⟩

theorem wr32_spec (s : List Nat) (a x : Nat) (ha : a + 3 < s.length) (hx : x < 2 ^ 32) :
    ∃ s', wr32 s a x = some s' ∧ s'.length = s.length ∧ rd32 s' a = some x ∧
      ∀ i, (i < a ∨ a + 3 < i) → s'[i]? = s[i]? := by
  refine ⟨(((s.set a (x % 256)).set (a + 1) (x / 256 % 256)).set (a + 2) (x / 65536 % 256)).set (a + 3)
    (x / 16777216 % 256), ?_, ?_, ?_, ?_⟩
  · unfold wr32 wr
    rw [if_pos (by omega), Option.bind_some, if_pos (by simp; omega), Option.bind_some, if_pos (by simp; omega),
      Option.bind_some, if_pos (by simp; omega)]
  · simp
  · unfold rd32 rd
    have h : ∀ (l : List Nat) (i j y : Nat), i ≠ j → (l.set i y)[j]? = l[j]? := fun l i j y h => List.getElem?_set_ne h
    rw [h _ _ _ _ (by omega), h _ _ _ _ (by omega), h _ _ _ _ (by omega), List.getElem?_set_self (by omega),
      h _ _ _ _ (by omega), h _ _ _ _ (by omega), List.getElem?_set_self (by simp; omega),
      h _ _ _ _ (by omega), List.getElem?_set_self (by simp; omega), List.getElem?_set_self (by simp; omega)]
    simp only [Option.some.injEq]
    omega
  · intro i hi
    rw [List.getElem?_set_ne (by omega), List.getElem?_set_ne (by omega), List.getElem?_set_ne (by omega),
      List.getElem?_set_ne (by omega)]

theorem rd32_congr {s s' : List Nat} {a : Nat} (h : ∀ i, a ≤ i → i ≤ a + 3 → s'[i]? = s[i]?) :
    rd32 s' a = rd32 s a := by
  unfold rd32 rd
  rw [h a (by omega) (by omega), h (a + 1) (by omega) (by omega), h (a + 2) (by omega) (by omega),
    h (a + 3) (by omega) (by omega)]

theorem layout_shared (n sz : Nat) (h1 : n ≤ sz) (h0 : 1 ≤ sz) :
    Layout (shared n) n n (fun s g pl lo => s.length = 4 * sz ∧ (4 * pl.length ≤ 3 * n + lo ∨ n = 0) ∧
      (∀ j, lo ≤ j → j < n → s[3 * n + j]? = some (g j)) ∧ ∀ k, k < pl.length → rd32 s (4 * k) = pl[k]?) where
  rq := by
    rintro s g pl lo j ⟨-, -, h, -⟩ hlo hj
    simp only [shared, rd]
    rw [show 4 * n - n + j = 3 * n + j by omega]
    exact h j hlo hj
  wq := by
    rintro s g pl lo j x ⟨hl, hb, hq, hp⟩ hlo hj
    refine ⟨s.set (3 * n + j) x, ?_, by simpa using hl, hb, ?_, ?_⟩
    · simp only [shared, wr]
      rw [show 4 * n - n + j = 3 * n + j by omega, if_pos (by omega)]
    · intro i hi1 hi2
      by_cases hij : i = j
      · subst hij; rw [List.getElem?_set_self (by omega), Function.update_self]
      · rw [List.getElem?_set_ne (by omega), Function.update_of_ne hij]; exact hq i hi1 hi2
    · intro k hk
      rw [← hp k hk]
      apply rd32_congr
      intro i _ _
      rw [List.getElem?_set_ne (by omega)]
  wp := by
    rintro s g pl lo x ⟨hl, hb, hq, hp⟩ hlt hlo hcap hx
    obtain ⟨s', e, l, r, o⟩ := wr32_spec s (4 * pl.length) x (by omega) hx
    refine ⟨s', e, by omega, by simp; omega, ?_, ?_⟩
    · intro j hj1 hj2
      rw [o _ (by omega)]
      exact hq j hj1 hj2
    · intro k hk
      rw [List.length_append, List.length_singleton] at hk
      by_cases hkl : k = pl.length
      · subst hkl; rw [r]; simp
      · rw [List.getElem?_append_left (by omega), ← hp k (by omega)]
        apply rd32_congr
        intro i _ _
        exact o i (by omega)
  mono := by
    rintro s g pl lo lo' ⟨hl, hb, hq, hp⟩ h
    exact ⟨hl, by omega, fun j hj1 hj2 => hq j (by omega) hj2, hp⟩
  congr := by
    rintro s g g' pl lo ⟨hl, hb, hq, hp⟩ hg
    exact ⟨hl, hb, fun j hj1 hj2 => by rw [hq j hj1 hj2, hg j hj2], hp⟩

/-! ### Theorems -/

/-- C11: with both arrays given, `primes` returns the number of primes below `n`, stores
them in increasing order followed by a `0`, sets the flags, and leaves the rest of both
arrays alone.  `p` needs one entry more than there are primes, `q` needs `n` entries. -/
theorem C11_primes (lim n : Nat) (hlim : n + n.sqrt ≤ lim + 1) (h32 : n ≤ 2 ^ 32) (p0 q0 : List Nat)
    (hp : (primesBelow n).length < p0.length) (hq : n ≤ q0.length) :
    ∃ p q, primes both lim n (p0, q0) = some ((p, q), (primesBelow n).length) ∧
      p = primesBelow n ++ [0] ++ p0.drop ((primesBelow n).length + 1) ∧
      q = (List.range n).map (fun i => if i.Prime then 1 else 0) ++ q0.drop n := by
  obtain ⟨⟨p, q⟩, g, e, ⟨h1, -, h3, h4, h5⟩, hg⟩ := primes_spec (layout_both n _ p0 q0 hp hq) (le_refl _) hlim h32
    (s := (p0, q0)) (g := fun i => q0.getD i 0) ⟨by simp, by simp, rfl, rfl, fun j hj => by
      simp only [List.getD_eq_getElem?_getD]
      rw [List.getElem?_eq_getElem (by omega)]; rfl⟩
  refine ⟨p, q, e, by simpa using h1, ?_⟩
  simp only at h3 h4 h5
  rw [← List.take_append_drop n q, h4]
  congr 1
  apply List.ext_getElem?
  intro i
  by_cases hi : i < n
  · rw [List.getElem?_take_of_lt hi, h5 i hi, List.getElem?_map, List.getElem?_range hi, hg i hi]; rfl
  · rw [List.getElem?_eq_none (by simp; omega), List.getElem?_eq_none (by simp; omega)]

/-- C11: with `p` null. -/
theorem C11_primes_only_q (lim n : Nat) (hlim : n + n.sqrt ≤ lim + 1) (h32 : n ≤ 2 ^ 32) (q0 : List Nat)
    (hq : n ≤ q0.length) :
    primes onlyQ lim n q0 =
      some ((List.range n).map (fun i => if i.Prime then 1 else 0) ++ q0.drop n, (primesBelow n).length) := by
  obtain ⟨q, g, e, ⟨h3, h4, h5⟩, hg⟩ := primes_spec (layout_onlyQ n q0 hq) (by
      rcases Nat.eq_zero_or_pos n with h | h
      · subst h; decide
      · exact (primesBelow_length_lt n h).le) hlim h32
    (s := q0) (g := fun i => q0.getD i 0) ⟨rfl, rfl, fun j hj => by
      simp only [List.getD_eq_getElem?_getD]
      rw [List.getElem?_eq_getElem (by omega)]; rfl⟩
  rw [e, Option.some.injEq, Prod.mk.injEq]
  refine ⟨?_, rfl⟩
  rw [← List.take_append_drop n q, h4]
  congr 1
  apply List.ext_getElem?
  intro i
  by_cases hi : i < n
  · rw [List.getElem?_take_of_lt hi, h5 i hi, List.getElem?_map, List.getElem?_range hi, hg i hi]; rfl
  · rw [List.getElem?_eq_none (by simp; omega), List.getElem?_eq_none (by simp; omega)]

/-- C11: with `q` null, the flags are kept in the last `n` bytes of the `n` entries of `p`,
which are overwritten by primes only when they are no longer needed.  `p` has `sz ≥ n`
entries (and at least one, for the terminator). -/
theorem C11_primes_only_p (lim n : Nat) (hlim : n + n.sqrt ≤ lim + 1) (h32 : n ≤ 2 ^ 32) (sz : Nat) (h1 : n ≤ sz)
    (h0 : 1 ≤ sz) (bytes : List Nat) (hb : bytes.length = 4 * sz) :
    ∃ bytes', primes (shared n) lim n bytes = some (bytes', (primesBelow n).length) ∧ bytes'.length = 4 * sz ∧
      (∀ k, k < (primesBelow n).length → rd32 bytes' (4 * k) = (primesBelow n)[k]?) ∧
      rd32 bytes' (4 * (primesBelow n).length) = some 0 := by
  obtain ⟨s, g, e, ⟨hl, -, -, hp⟩, -⟩ := primes_spec (layout_shared n sz h1 h0) (by
      rcases Nat.eq_zero_or_pos n with h | h
      · subst h; decide
      · exact (primesBelow_length_lt n h).le) hlim h32
    (s := bytes) (g := fun i => bytes.getD (3 * n + i) 0) ⟨hb, by simp, fun j _ hj => by
      simp only [List.getD_eq_getElem?_getD]
      rw [List.getElem?_eq_getElem (by omega)]; rfl, by simp⟩
  refine ⟨s, e, hl, fun k hk => ?_, ?_⟩
  · rw [hp k (by simp; omega), List.getElem?_append_left hk]
  · rw [hp _ (by simp)]; simp

/-! Concrete calls. -/
example : primes both (2 ^ 31 - 1) 30 (List.replicate 11 7, List.replicate 31 9) =
    some (([2, 3, 5, 7, 11, 13, 17, 19, 23, 29, 0],
      (List.range 30).map (fun i => if i.Prime then 1 else 0) ++ [9]), 10) := by decide +kernel

example : (primes (shared 20) (2 ^ 31 - 1) 20 (List.replicate 80 7)).map (·.2) = some 8 := by decide +kernel

/-- The size requirement on `p` documented in the header (`pi(n)` entries) is one short:
the terminator is written past the end. -/
theorem C11_terminator_out_of_bounds :
    primes both (2 ^ 31 - 1) 10 (List.replicate (primesBelow 10).length 7, List.replicate 10 0) = none := by
  decide +kernel

end Altruct.Primes
