/-
C12: tables of arithmetic functions (prime counts, totients, numbers of prime factors,
biggest and smallest prime factors, divisor counts and sums).
-/
import Verif.Primes.TablesModel
import Verif.Primes.SieveProps
import Mathlib.NumberTheory.PrimeCounting
import Mathlib.Data.Nat.Totient
import Mathlib.Algebra.BigOperators.Associated
import Mathlib.NumberTheory.Divisors

namespace Altruct.Primes

theorem length_primesBelow (n : Nat) : (primesBelow n).length = Nat.count Nat.Prime n := by
  induction n with
  | zero => rfl
  | succ n ih =>
    rw [primesBelow_succ, List.length_append, ih, Nat.count_succ]
    split <;> rfl

theorem primesBelow_nodup (n : Nat) : (primesBelow n).Nodup :=
  (primesBelow_sorted n).imp (fun h => Nat.ne_of_lt h)

theorem primesBelow_split {n q : Nat} {L rest : List Nat} (h : primesBelow n = L ++ q :: rest) :
    q.Prime ∧ q < n ∧ L = primesBelow q := by
  have hq : q ∈ primesBelow n := by rw [h]; simp
  obtain ⟨hqn, hqp⟩ := mem_primesBelow.mp hq
  have hs := primesBelow_sorted n
  rw [h, List.pairwise_append, List.pairwise_cons] at hs
  obtain ⟨hL, ⟨hr, hrest⟩, hcross⟩ := hs
  refine ⟨hqp, hqn, ?_⟩
  have hperm : L.Perm (primesBelow q) := by
    rw [List.perm_ext_iff_of_nodup (hL.imp (fun h => Nat.ne_of_lt h)) (primesBelow_nodup q)]
    intro a
    rw [mem_primesBelow]
    constructor
    · intro ha
      have : a ∈ primesBelow n := by rw [h]; simp [ha]
      exact ⟨hcross a ha q (by simp), (mem_primesBelow.mp this).2⟩
    · rintro ⟨h1, h2⟩
      have : a ∈ primesBelow n := mem_primesBelow.mpr ⟨by omega, h2⟩
      rw [h, List.mem_append, List.mem_cons] at this
      rcases this with h3 | h3 | h3
      · exact h3
      · omega
      · have := hr a h3; omega
  exact List.Perm.eq_of_pairwise (le := (· < ·)) (fun a b _ _ h1 h2 => by omega) hL (primesBelow_sorted q) hperm

/-- The primes below `n` that divide `j` are the prime factors of `j`. -/
theorem filter_dvd_primeFactors {n j : Nat} (h0 : 0 < j) (hj : j < n) :
    ((primesBelow n).filter (· ∣ j)).toFinset = j.primeFactors := by
  ext p
  simp only [List.mem_toFinset, List.mem_filter, mem_primesBelow, decide_eq_true_eq, Nat.mem_primeFactors]
  constructor
  · rintro ⟨⟨_, h1⟩, h2⟩; exact ⟨h1, h2, by omega⟩
  · rintro ⟨h1, h2, _⟩; exact ⟨⟨by have := Nat.le_of_dvd h0 h2; omega, h1⟩, h2⟩

/-! ### Number of primes -/

theorem piLoop_spec (n : Nat) (hn : 3 ≤ n) (rest : List Nat) (k : Nat) (K : Nat) :
    ∀ (v : List Nat) (g : Nat → Nat) (i : Nat), n - i = k → Rep v K g → n ≤ K →
    ∃ v', piLoop (primesBelow n ++ 0 :: rest) n v (primesBelow i).length i = some v' ∧
      Rep v' K (fun j => if i ≤ j ∧ j < n then (primesBelow (j + 1)).length else g j) := by
  induction k with
  | zero =>
    intro v g i hk r hK
    rw [piLoop, if_neg (by omega)]
    exact ⟨v, rfl, r.congr (fun j _ => by rw [if_neg (by omega)])⟩
  | succ k ih =>
    intro v g i hk r hK
    rw [piLoop, if_pos (by omega)]
    have hlen := primesBelow_length_mono (show i ≤ n by omega)
    obtain ⟨q, hq, hiq⟩ : ∃ q, rd (primesBelow n ++ 0 :: rest) (primesBelow i).length = some q ∧ (i = q ↔ i.Prime) := by
      by_cases hlt : (primesBelow i).length < (primesBelow n).length
      · refine ⟨(primesBelow n)[(primesBelow i).length], ?_, ?_⟩
        · rw [rd, List.getElem?_append_left hlt, List.getElem?_eq_getElem hlt]
        · have hsplit : primesBelow n = (primesBelow n).take (primesBelow i).length ++
              (primesBelow n)[(primesBelow i).length] :: (primesBelow n).drop ((primesBelow i).length + 1) := by
            rw [← List.drop_eq_getElem_cons hlt, List.take_append_drop]
          obtain ⟨h1, h2, h3⟩ := primesBelow_split hsplit
          constructor
          · intro h; rw [h]; exact h1
          · intro hp
            have hl : (primesBelow (primesBelow n)[(primesBelow i).length]).length = (primesBelow i).length := by
              rw [← h3, List.length_take]; omega
            by_contra hne
            rcases Nat.lt_or_gt_of_ne hne with h | h
            · have := primesBelow_length_mono (show i + 1 ≤ _ from h)
              rw [primesBelow_succ, if_pos hp, List.length_append, hl] at this
              simp at this
            · have := primesBelow_length_mono (show _ + 1 ≤ i from h)
              rw [primesBelow_succ, if_pos h1, List.length_append, hl] at this
              simp at this
      · refine ⟨0, ?_, ?_⟩
        · rw [rd, show (primesBelow i).length = (primesBelow n).length by omega]
          simp
        · constructor
          · rintro rfl
            exfalso
            have : (primesBelow 3).length ≤ (primesBelow n).length := primesBelow_length_mono hn
            have h0 : (primesBelow 0).length = 0 := rfl
            have h3 : (primesBelow 3).length = 1 := by decide
            omega
          · intro hp
            exfalso
            have := primesBelow_length_mono (show i + 1 ≤ n by omega)
            rw [primesBelow_succ, if_pos hp, List.length_append] at this
            simp at this; omega
    rw [hq]
    simp only
    have hl : (if i = q then (primesBelow i).length + 1 else (primesBelow i).length) = (primesBelow (i + 1)).length := by
      rw [primesBelow_succ, List.length_append]
      by_cases hp : i.Prime
      · rw [if_pos (hiq.mpr hp), if_pos hp]; rfl
      · rw [if_neg (fun h => hp (hiq.mp h)), if_neg hp]; rfl
    rw [hl, r.wr (by omega)]
    simp only
    obtain ⟨v', e, r'⟩ := ih _ _ (i + 1) (by omega) (r.set i (primesBelow (i + 1)).length) hK
    refine ⟨v', e, r'.congr (fun j _ => ?_)⟩
    by_cases hj : j = i
    · subst hj; rw [if_neg (by omega), Function.update_self, if_pos (by omega)]
    · rw [Function.update_of_ne hj]
      by_cases hc : i ≤ j ∧ j < n
      · rw [if_pos (by omega), if_pos hc]
      · rw [if_neg (by omega), if_neg hc]

/-- C12: `prime_pi` stores the number of primes `≤ i` at every index `i < n`, given the
array produced by `primes` (with its terminating 0), for `n ≥ 3`. -/
theorem C12_prime_pi (n : Nat) (hn : 3 ≤ n) (p : List Nat) (rest : List Nat) (hp : p = primesBelow n ++ 0 :: rest)
    (pi : List Nat) (hpi : pi.length = n) :
    primePi pi n p = some ((List.range n).map Nat.primeCounting) := by
  subst hp
  obtain ⟨v, e, r⟩ := piLoop_spec n hn rest _ n pi _ 0 rfl (hpi ▸ Rep.self pi) (le_refl n)
  have e' : piLoop (primesBelow n ++ 0 :: rest) n pi 0 0 = some v := e
  rw [primePi, e', r.eq_map, Option.some.injEq]
  apply List.map_congr_left
  intro i hi
  rw [List.mem_range] at hi
  rw [if_pos ⟨Nat.zero_le i, hi⟩, length_primesBelow]; rfl

/-- The boundary `n ≥ 3` is needed: for `n = 2` the entry at 0 is wrong. -/
theorem C12_prime_pi_small : primePi [7, 7] 2 (primesBelow 2 ++ [0, 5]) = some [1, 1] := by decide +kernel

/-! ### Totients -/

theorem prod_dvd_of_primes {L : List Nat} {j : Nat} (hn : L.Nodup) (h : ∀ p ∈ L, p.Prime ∧ p ∣ j) : L.prod ∣ j := by
  have := Finset.prod_primes_dvd (s := L.toFinset) j (fun a ha => (h a (List.mem_toFinset.mp ha)).1.prime)
    (fun a ha => (h a (List.mem_toFinset.mp ha)).2)
  rw [List.prod_toFinset _ hn] at this
  simpa using this

theorem phi_step {L : List Nat} {q j : Nat} (hn : (L ++ [q]).Nodup) (hp : ∀ p ∈ L ++ [q], p.Prime) (hq : q ∣ j) :
    (j / (L.filter (· ∣ j)).prod * ((L.filter (· ∣ j)).map (· - 1)).prod) / q * (q - 1) =
    j / ((L ++ [q]).filter (· ∣ j)).prod * (((L ++ [q]).filter (· ∣ j)).map (· - 1)).prod := by
  have hf : (L ++ [q]).filter (· ∣ j) = L.filter (· ∣ j) ++ [q] := by
    rw [List.filter_append]; simp [hq]
  have hd := prod_dvd_of_primes (j := j) (hn.filter (fun x => decide (x ∣ j))) (by
    intro p h
    rw [List.mem_filter] at h
    exact ⟨hp p h.1, by simpa using h.2⟩)
  rw [hf, List.prod_append, List.prod_singleton] at hd
  rw [hf, List.map_append, List.prod_append, List.prod_append, List.map_singleton, List.prod_singleton,
    List.prod_singleton]
  have hq0 : 0 < q := (hp q (by simp)).pos
  generalize (L.filter (· ∣ j)).prod = A at *
  generalize (List.map (fun x => x - 1) (L.filter (· ∣ j))).prod = B at *
  obtain ⟨c, rfl⟩ := hd
  rcases Nat.eq_zero_or_pos A with rfl | hA
  · simp
  · rw [show A * q * c = A * (q * c) by ring, Nat.mul_div_cancel_left _ hA, show A * (q * c) = (A * q) * c by ring,
      Nat.mul_div_cancel_left _ (Nat.mul_pos hA hq0), show q * c * B = q * (c * B) by ring,
      Nat.mul_div_cancel_left _ hq0]
    ring

theorem phi_final {n j : Nat} (hj : j < n) :
    j / ((primesBelow n).filter (· ∣ j)).prod * (((primesBelow n).filter (· ∣ j)).map (· - 1)).prod = j.totient := by
  rcases Nat.eq_zero_or_pos j with rfl | h0
  · simp
  · rw [Nat.totient_eq_div_primeFactors_mul, ← filter_dvd_primeFactors h0 hj,
      List.prod_toFinset _ ((primesBelow_nodup n).filter _), List.prod_toFinset _ ((primesBelow_nodup n).filter _)]
    simp

/-- The facts about the position of a prime in the list that every loop over it uses. -/
theorem step_facts {p : List Nat} {m n : Nat} (hp : p.take m = primesBelow n) {L : List Nat} {q : Nat}
    {rest : List Nat} (h : p.take m = L ++ q :: rest) :
    q.Prime ∧ q < n ∧ L = primesBelow q ∧ (L ++ [q]).Nodup ∧ ∀ x ∈ L ++ [q], x.Prime := by
  rw [hp] at h
  obtain ⟨h1, h2, h3⟩ := primesBelow_split h
  have e : L ++ [q] = primesBelow (q + 1) := by rw [primesBelow_succ, if_pos h1, h3]
  refine ⟨h1, h2, h3, ?_, ?_⟩
  · rw [e]; exact primesBelow_nodup _
  · intro x hx; rw [e] at hx; exact (mem_primesBelow.mp hx).2

/-- C12: `euler_phi` stores Euler's totient at every index. -/
theorem C12_euler_phi (lim n : Nat) (hlim : 2 * n ≤ lim) (p : List Nat) (m : Nat) (hm : m ≤ p.length)
    (hp : p.take m = primesBelow n) (phi : List Nat) (hphi : phi.length = n) :
    eulerPhi lim phi n p m = some ((List.range n).map Nat.totient) := by
  obtain ⟨v0, e0, r0⟩ := fill_spec (lim := lim) (off := 0) (e := n) (k := n) (f := fun i _ => some i) (fun i => i)
    (by omega) (by omega) 0 (le_refl 0) (hphi ▸ Rep.self phi) (fun i _ _ => by simp)
  obtain ⟨v, e, r⟩ := forPrimes_spec hm
    (body := fun q phi => stride lim 0 (fun _ x => some (x / q * (q - 1))) n q phi q)
    (fun L v => Rep v n (fun j => j / (L.filter (· ∣ j)).prod * ((L.filter (· ∣ j)).map (· - 1)).prod))
    (s := v0) (by
      intro L q rest s hsplit r
      obtain ⟨hq, hqn, hL, hnd, hpr⟩ := step_facts hp hsplit
      obtain ⟨v', e', r'⟩ := stride_spec (lim := lim) (off := 0) (e := n) (k := n)
        (f := fun _ x => some (x / q * (q - 1)))
        (fun j => j / ((L ++ [q]).filter (· ∣ j)).prod * (((L ++ [q]).filter (· ∣ j)).map (· - 1)).prod)
        hq.pos (by omega) (by omega) q (by omega) (dvd_refl q) r (by
          intro j h1 h2 h3
          rw [Nat.zero_add] at h3
          simp only [Option.some.injEq]
          exact phi_step hnd hpr h3)
      refine ⟨v', e', r'.congr (fun j hj => ?_)⟩
      simp only [Nat.zero_add]
      by_cases hc : q ≤ j ∧ j < n ∧ q ∣ j
      · rw [if_pos hc]
      · rw [if_neg hc]
        rcases Nat.eq_zero_or_pos j with rfl | h0
        · simp
        · have : ¬ q ∣ j := fun h => hc ⟨Nat.le_of_dvd h0 h, hj, h⟩
          rw [List.filter_append]
          simp [this])
    (by
      refine r0.congr (fun j hj => ?_)
      simp [hj])
  rw [eulerPhi, e0, Option.bind_some, e, r.eq_map, hp, Option.some.injEq]
  apply List.map_congr_left
  intro j hj
  exact phi_final (List.mem_range.mp hj)

/-! ### Number of distinct prime factors -/

/-- C12: `prime_nu` stores the number of distinct prime factors at every index. -/
theorem C12_prime_nu (lim n : Nat) (hlim : 2 * n ≤ lim) (p : List Nat) (m : Nat) (hm : m ≤ p.length)
    (hp : p.take m = primesBelow n) (nu : List Nat) (hnu : nu.length = n) :
    primeNu lim nu n p m = some ((List.range n).map fun j => j.primeFactors.card) := by
  obtain ⟨v0, e0, r0⟩ := fill_spec (lim := lim) (off := 0) (e := n) (k := n) (f := fun _ _ => some 0) (fun _ => 0)
    (by omega) (by omega) 0 (le_refl 0) (hnu ▸ Rep.self nu) (fun i _ _ => by simp)
  obtain ⟨v, e, r⟩ := forPrimes_spec hm
    (body := fun q nu => stride lim 0 (fun _ x => some (x + 1)) n q nu q)
    (fun L v => Rep v n (fun j => if j = 0 then 0 else (L.filter (· ∣ j)).length))
    (s := v0) (by
      intro L q rest s hsplit r
      obtain ⟨hq, hqn, hL, hnd, hpr⟩ := step_facts hp hsplit
      have hq0 := hq.pos
      obtain ⟨v', e', r'⟩ := stride_spec (lim := lim) (off := 0) (e := n) (k := n)
        (f := fun _ x => some (x + 1)) (fun j => if j = 0 then 0 else ((L ++ [q]).filter (· ∣ j)).length)
        hq.pos (by omega) (by omega) q (by omega) (dvd_refl q) r (by
          intro j h1 h2 h3
          rw [Nat.zero_add] at h3
          simp only [Option.some.injEq]
          rw [if_neg (by omega), if_neg (by omega), List.filter_append]
          simp [h3])
      refine ⟨v', e', r'.congr (fun j hj => ?_)⟩
      simp only [Nat.zero_add]
      by_cases hc : q ≤ j ∧ j < n ∧ q ∣ j
      · rw [if_pos hc]
      · rw [if_neg hc]
        rcases Nat.eq_zero_or_pos j with rfl | h0
        · simp
        · have : ¬ q ∣ j := fun h => hc ⟨Nat.le_of_dvd h0 h, hj, h⟩
          rw [List.filter_append]
          simp [this])
    (by
      refine r0.congr (fun j hj => ?_)
      simp [hj])
  rw [primeNu, e0, Option.bind_some, e, r.eq_map, hp, Option.some.injEq]
  apply List.map_congr_left
  intro j hj
  rcases Nat.eq_zero_or_pos j with rfl | h0
  · simp
  · rw [if_neg (by omega), ← filter_dvd_primeFactors h0 (List.mem_range.mp hj),
      List.toFinset_card_of_nodup ((primesBelow_nodup n).filter _)]

/-! ### Biggest prime factor -/

/-- C12: `factor` stores the biggest prime factor at every index `j ≥ 2`, and `j` for
`j < 2`. -/
theorem C12_factor (lim n : Nat) (h2 : 2 ≤ n) (hlim : 2 * n ≤ lim) (p : List Nat) (m : Nat) (hm : m ≤ p.length)
    (hp : p.take m = primesBelow n) (bpf : List Nat) (hb : bpf.length = n) :
    ∃ v, factor lim bpf n p m = some v ∧ v.length = n ∧ v[0]? = some 0 ∧ v[1]? = some 1 ∧
      ∀ j, 2 ≤ j → j < n → ∃ q, v[j]? = some q ∧ IsGreatest {x | x.Prime ∧ x ∣ j} q := by
  have r := hb ▸ Rep.self bpf
  have r1 := (r.set 0 0).set 1 1
  obtain ⟨v, e, g, r, hg⟩ := forPrimes_spec hm
    (body := fun q v => stride lim 0 (fun _ _ => some q) n q v q)
    (fun L v => ∃ g, Rep v n g ∧ g 0 = 0 ∧ g 1 = 1 ∧ ∀ j, 2 ≤ j → j < n → (∃ x ∈ L, x ∣ j) →
      IsGreatest {x | x ∈ L ∧ x ∣ j} (g j))
    (s := (bpf.set 0 0).set 1 1) (by
      rintro L q rest s hsplit ⟨g, r, g0, g1, hg⟩
      obtain ⟨hq, hqn, hL, hnd, hpr⟩ := step_facts hp hsplit
      have hq2 := hq.two_le
      obtain ⟨v', e', r'⟩ := stride_spec (lim := lim) (off := 0) (e := n) (k := n)
        (f := fun _ _ => some q) (fun j => q)
        hq.pos (by omega) (by omega) q (by omega) (dvd_refl q) r (fun _ _ _ _ => rfl)
      refine ⟨v', e', _, r', ?_, ?_, ?_⟩
      · rw [if_neg (by omega)]; exact g0
      · rw [if_neg (by omega)]; exact g1
      · intro j hj2 hj ⟨x, hx, hxj⟩
        simp only [Nat.zero_add]
        by_cases hqj : q ∣ j
        · rw [if_pos ⟨Nat.le_of_dvd (by omega) hqj, hj, hqj⟩]
          refine ⟨⟨by simp, hqj⟩, ?_⟩
          rintro y ⟨hy, -⟩
          rw [List.mem_append, List.mem_singleton, hL, mem_primesBelow] at hy
          omega
        · rw [if_neg (fun hc => hqj hc.2.2)]
          have hset : {x | x ∈ L ++ [q] ∧ x ∣ j} = {x | x ∈ L ∧ x ∣ j} := by
            ext y
            simp only [Set.mem_ofPred_eq, List.mem_append, List.mem_singleton]
            constructor
            · rintro ⟨h | rfl, h3⟩
              · exact ⟨h, h3⟩
              · exact absurd h3 hqj
            · rintro ⟨h, h3⟩; exact ⟨Or.inl h, h3⟩
          rw [hset]
          refine hg j hj2 hj ⟨x, ?_, hxj⟩
          rw [List.mem_append, List.mem_singleton] at hx
          rcases hx with hx | rfl
          · exact hx
          · exact absurd hxj hqj)
    ⟨_, r1, by rw [Function.update_of_ne (by omega), Function.update_self], Function.update_self _ _ _, by simp⟩
  obtain ⟨g0, g1, hg⟩ := hg
  refine ⟨v, ?_, r.len, by rw [r.get 0 (by omega), g0], by rw [r.get 1 (by omega), g1], ?_⟩
  · rw [factor, (hb ▸ Rep.self bpf : Rep bpf n _).wr (by omega), Option.bind_some,
      ((hb ▸ Rep.self bpf : Rep bpf n _).set 0 0).wr (by omega), Option.bind_some, e]
  · intro j hj2 hj
    refine ⟨g j, r.get j hj, ?_⟩
    have := hg j hj2 hj (by
      rw [hp]
      exact ⟨j.minFac, mem_primesBelow.mpr ⟨lt_of_le_of_lt (Nat.minFac_le (by omega)) hj,
        Nat.minFac_prime (by omega)⟩, Nat.minFac_dvd j⟩)
    have hset : {x | x ∈ p.take m ∧ x ∣ j} = {x | x.Prime ∧ x ∣ j} := by
      ext y
      simp only [Set.mem_ofPred_eq, hp, mem_primesBelow]
      constructor
      · rintro ⟨⟨_, h1⟩, h2⟩; exact ⟨h1, h2⟩
      · rintro ⟨h1, h2⟩; exact ⟨⟨by have := Nat.le_of_dvd (by omega) h2; omega, h1⟩, h2⟩
    rwa [hset] at this

/-! ### Divisor counts and sums -/

theorem divLoop_spec (lim : Nat) (w : Nat → Nat) (n K : Nat) (hlim : 2 * n ≤ lim) (hK : n ≤ K) (k : Nat) :
    ∀ (v : List Nat) (g : Nat → Nat) (i : Nat), n - i = k → 1 ≤ i → Rep v K g →
    ∃ v', divLoop lim w n v i = some v' ∧
      Rep v' K (fun j => if 1 ≤ j ∧ j < n then g j + ∑ d ∈ j.divisors with i ≤ d, w d else g j) := by
  induction k with
  | zero =>
    intro v g i hk hi r
    rw [divLoop, if_neg (by omega)]
    refine ⟨v, rfl, r.congr (fun j _ => ?_)⟩
    split
    · rw [Finset.filter_false_of_mem]
      · simp
      · intro d hd
        have := Nat.divisor_le hd
        omega
    · rfl
  | succ k ih =>
    intro v g i hk hi r
    rw [divLoop, if_pos (by omega)]
    obtain ⟨v1, e1, r1⟩ := stride_spec (lim := lim) (off := 0) (e := n) (k := K)
        (f := fun _ x => some (x + w i)) (fun j => g j + w i) hi (by omega) (by omega) i (by omega) (dvd_refl i) r
        (fun _ _ _ _ => rfl)
    rw [e1]
    simp only
    obtain ⟨v2, e2, r2⟩ := ih v1 _ (i + 1) (by omega) (by omega) r1
    refine ⟨v2, e2, r2.congr (fun j _ => ?_)⟩
    simp only [Nat.zero_add]
    by_cases hj : 1 ≤ j ∧ j < n
    · rw [if_pos hj, if_pos hj]
      by_cases hd : i ∣ j
      · rw [if_pos ⟨Nat.le_of_dvd (by omega) hd, hj.2, hd⟩]
        have : (j.divisors.filter (fun d => i ≤ d)) = insert i (j.divisors.filter (fun d => i + 1 ≤ d)) := by
          ext d
          simp only [Finset.mem_filter, Finset.mem_insert, Nat.mem_divisors]
          constructor
          · rintro ⟨h1, h2⟩
            by_cases h : d = i
            · exact Or.inl h
            · exact Or.inr ⟨h1, by omega⟩
          · rintro (rfl | ⟨h1, h2⟩)
            · exact ⟨⟨hd, by omega⟩, le_refl _⟩
            · exact ⟨h1, by omega⟩
        rw [this, Finset.sum_insert (by simp)]
        ring
      · rw [if_neg (fun hc => hd hc.2.2)]
        congr 1
        apply Finset.sum_congr _ (fun _ _ => rfl)
        ext d
        simp only [Finset.mem_filter, Nat.mem_divisors]
        constructor
        · rintro ⟨h1, h2⟩; exact ⟨h1, by omega⟩
        · rintro ⟨h1, h2⟩
          refine ⟨h1, ?_⟩
          by_contra hc
          have : d = i := by omega
          subst this
          exact hd h1.1
    · rw [if_neg hj, if_neg hj, if_neg (by omega)]

theorem sigma_aux (lim : Nat) (w : Nat → Nat) (n : Nat) (hlim : 2 * n ≤ lim) (ds : List Nat) (hds : ds.length = n) :
    ∃ v, (stride lim 0 (fun _ _ => some 0) n 1 ds 1).bind (fun ds => divLoop lim w n ds 1) = some v ∧
      v.length = n ∧ v[0]? = ds[0]? ∧ ∀ j, 1 ≤ j → j < n → v[j]? = some (∑ d ∈ j.divisors, w d) := by
  have r := hds ▸ Rep.self ds
  obtain ⟨v0, e0, r0⟩ := fill_spec (lim := lim) (off := 0) (e := n) (k := n) (f := fun _ _ => some 0) (fun _ => 0)
    (by omega) (by omega) 1 (by omega) r (fun i _ _ => rfl)
  obtain ⟨v, e, r1⟩ := divLoop_spec lim w n n hlim (le_refl n) _ v0 _ 1 rfl (le_refl 1) r0
  refine ⟨v, by rw [e0, Option.bind_some, e], r1.len, ?_, ?_⟩
  · by_cases hn : 0 < n
    · rw [r1.get 0 hn, r.get 0 hn]; simp
    · rw [List.getElem?_eq_none (by rw [r1.len]; omega), List.getElem?_eq_none (by omega)]
  · intro j hj hjn
    rw [r1.get j hjn]
    simp only [Nat.zero_add]
    rw [if_pos ⟨hj, hjn⟩, if_pos ⟨hj, hjn⟩, Nat.zero_add, Finset.filter_true_of_mem]
    intro d hd
    exact Nat.pos_of_mem_divisors hd

/-- C12: `divisor_sigma0` stores the number of divisors at every index `≥ 1`. -/
theorem C12_divisor_sigma0 (lim n : Nat) (hlim : 2 * n ≤ lim) (ds : List Nat) (hds : ds.length = n) :
    ∃ v, divisorSigma0 lim ds n = some v ∧ v.length = n ∧ v[0]? = ds[0]? ∧
      ∀ j, 1 ≤ j → j < n → v[j]? = some j.divisors.card := by
  obtain ⟨v, h1, h2, h3, h4⟩ := sigma_aux lim (fun _ => 1) n hlim ds hds
  exact ⟨v, h1, h2, h3, fun j hj hjn => by rw [h4 j hj hjn]; simp⟩

/-- C12: `divisor_sigma1` stores the sum of divisors at every index `≥ 1`. -/
theorem C12_divisor_sigma1 (lim n : Nat) (hlim : 2 * n ≤ lim) (ds : List Nat) (hds : ds.length = n) :
    ∃ v, divisorSigma1 lim ds n = some v ∧ v.length = n ∧ v[0]? = ds[0]? ∧
      ∀ j, 1 ≤ j → j < n → v[j]? = some (∑ d ∈ j.divisors, d) :=
  sigma_aux lim (fun i => i) n hlim ds hds

/-! ### Smallest prime factor -/

/-- `j` has a divisor `d < i` with `2 ≤ d` and `d * d ≤ j`. -/
def SmallDiv (i j : Nat) : Prop := ∃ d, 2 ≤ d ∧ d < i ∧ d ∣ j ∧ d * d ≤ j

open Classical in
theorem spfLoop1_spec (lim n : Nat) (hlim : 2 * n ≤ lim) (k : Nat) :
    ∀ (v : List Nat) (i : Nat), n - i = k → 2 ≤ i → Rep v n (fun j => if SmallDiv i j then 1 else 0) →
    ∃ v', spfLoop1 lim n v i = some v' ∧ Rep v' n (fun j => if SmallDiv n j then 1 else 0) := by
  induction k with
  | zero =>
    intro v i hk hi r
    rw [spfLoop1, if_neg (by omega)]
    refine ⟨v, rfl, r.congr (fun j hj => ?_)⟩
    have : SmallDiv i j ↔ SmallDiv n j := by
      constructor
      · rintro ⟨d, h1, h2, h3, h4⟩
        refine ⟨d, h1, ?_, h3, h4⟩
        have := Nat.le_mul_self d
        omega
      · rintro ⟨d, h1, h2, h3, h4⟩
        exact ⟨d, h1, by omega, h3, h4⟩
    by_cases h : SmallDiv i j
    · rw [if_pos h, if_pos (this.mp h)]
    · rw [if_neg h, if_neg (fun hc => h (this.mpr hc))]
  | succ k ih =>
    intro v i hk hi r
    rw [spfLoop1, if_pos (by omega), r.rd (by omega)]
    simp only
    -- the array already satisfies the invariant for `i + 1` when no new entry is to be marked
    have mono : ∀ j, SmallDiv i j → SmallDiv (i + 1) j := fun j ⟨d, h1, h2, h3, h4⟩ => ⟨d, h1, by omega, h3, h4⟩
    have back : ∀ j, SmallDiv (i + 1) j → SmallDiv i j ∨ (i ∣ j ∧ i * i ≤ j) := by
      rintro j ⟨d, h1, h2, h3, h4⟩
      by_cases h : d = i
      · subst h; exact Or.inr ⟨h3, h4⟩
      · exact Or.inl ⟨d, h1, by omega, h3, h4⟩
    by_cases hc : SmallDiv i i ∨ i > n / i
    · rw [if_pos (by
        rcases hc with h | h
        · left; rw [if_pos h]; omega
        · exact Or.inr h)]
      refine ih v (i + 1) (by omega) (by omega) (r.congr (fun j hj => ?_))
      have : SmallDiv i j ↔ SmallDiv (i + 1) j := by
        refine ⟨mono j, fun h => ?_⟩
        rcases back j h with h | ⟨h3, h4⟩
        · exact h
        · rcases hc with ⟨d, h1, h2, h5, h6⟩ | h
          · refine ⟨d, h1, h2, h5.trans h3, ?_⟩
            have := Nat.mul_le_mul (show d ≤ i by omega) (show d ≤ i by omega)
            omega
          · exfalso
            have := (Nat.div_lt_iff_lt_mul (show 0 < i by omega)).mp h
            omega
      by_cases h : SmallDiv i j
      · rw [if_pos h, if_pos (this.mp h)]
      · rw [if_neg h, if_neg (fun hc => h (this.mpr hc))]
    · have hc1 : ¬ SmallDiv i i := fun h => hc (Or.inl h)
      have hc2 : ¬ i > n / i := fun h => hc (Or.inr h)
      rw [if_neg (by rw [if_neg hc1]; omega)]
      obtain ⟨v1, e1, r1⟩ := stride_spec (lim := lim) (off := 0) (e := n) (k := n)
        (f := fun _ _ => some 1) (fun _ => 1) (show 0 < i by omega) (by omega) (by omega) (i * i) (by omega)
        (dvd_mul_left i i) r (fun _ _ _ _ => rfl)
      rw [e1]
      simp only
      refine ih v1 (i + 1) (by omega) (by omega) (r1.congr (fun j hj => ?_))
      simp only [Nat.zero_add]
      by_cases h : i * i ≤ j ∧ j < n ∧ i ∣ j
      · rw [if_pos h, if_pos ⟨i, hi, by omega, h.2.2, h.1⟩]
      · rw [if_neg h]
        have : SmallDiv i j ↔ SmallDiv (i + 1) j := by
          refine ⟨mono j, fun h' => ?_⟩
          rcases back j h' with h' | ⟨h3, h4⟩
          · exact h'
          · exact absurd ⟨h4, hj, h3⟩ h
        by_cases h : SmallDiv i j
        · rw [if_pos h, if_pos (this.mp h)]
        · rw [if_neg h, if_neg (fun hc => h (this.mpr hc))]

theorem smallDiv_iff {n j : Nat} (hj : j < n) : SmallDiv n j ↔ 2 ≤ j ∧ ¬ j.Prime := by
  constructor
  · rintro ⟨d, h1, h2, h3, h4⟩
    have := Nat.mul_le_mul h1 h1
    refine ⟨by omega, fun hp => ?_⟩
    rcases (Nat.dvd_prime hp).mp h3 with rfl | rfl
    · omega
    · have := Nat.mul_le_mul_right d h1; omega
  · rintro ⟨h2, hp⟩
    have h := Nat.minFac_sq_le_self (show 0 < j by omega) hp
    rw [pow_two] at h
    refine ⟨j.minFac, (Nat.minFac_prime (by omega)).two_le, ?_, Nat.minFac_dvd j, h⟩
    have := Nat.le_mul_self j.minFac
    omega

/-- Invariant of the second pass: `0` exactly at the non-composite entries, and the least
prime factor above `i` whose square is at most `j` when there is one. -/
def SpfInv (n i : Nat) (g : Nat → Nat) : Prop :=
  ∀ j, j < n → (g j = 0 ↔ ¬ SmallDiv n j) ∧
    ((∃ d, d.Prime ∧ i < d ∧ d ∣ j ∧ d * d ≤ j) → IsLeast {d | d.Prime ∧ i < d ∧ d ∣ j ∧ d * d ≤ j} (g j))

theorem spfLoop2_spec (lim n : Nat) (hlim : 2 * n ≤ lim) (i : Nat) :
    ∀ (v : List Nat) (g : Nat → Nat), i < n → Rep v n g → SpfInv n i g →
    ∃ v' g', spfLoop2 lim n i v = some v' ∧ Rep v' n g' ∧ SpfInv n 1 g' := by
  induction i with
  | zero =>
    intro v g hi r hg
    refine ⟨v, g, rfl, r, fun j hj => ⟨(hg j hj).1, ?_⟩⟩
    rintro ⟨d, h1, h2, h3, h4⟩
    have hset : {d | d.Prime ∧ 1 < d ∧ d ∣ j ∧ d * d ≤ j} = {d | d.Prime ∧ 0 < d ∧ d ∣ j ∧ d * d ≤ j} := by
      ext x
      simp only [Set.mem_ofPred_eq]
      exact ⟨fun ⟨a, b, c⟩ => ⟨a, by omega, c⟩, fun ⟨a, b, c⟩ => ⟨a, a.one_lt, c⟩⟩
    rw [hset]
    exact (hg j hj).2 ⟨d, h1, by omega, h3, h4⟩
  | succ i ih =>
    intro v g hi r hg
    rw [spfLoop2]
    by_cases h2 : i + 1 ≥ 2
    · rw [if_pos h2, r.rd hi]
      simp only
      by_cases hc : g (i + 1) ≠ 0 ∨ i + 1 > n / (i + 1)
      · rw [if_pos hc]
        refine ih v g (by omega) r (fun j hj => ⟨(hg j hj).1, ?_⟩)
        rintro ⟨d, d1, d2, d3, d4⟩
        have hset : {d | d.Prime ∧ i < d ∧ d ∣ j ∧ d * d ≤ j} = {d | d.Prime ∧ i + 1 < d ∧ d ∣ j ∧ d * d ≤ j} := by
          ext x
          simp only [Set.mem_ofPred_eq]
          refine ⟨fun ⟨a, b, c⟩ => ⟨a, ?_, c⟩, fun ⟨a, b, c⟩ => ⟨a, by omega, c⟩⟩
          by_contra hx
          have hxi : x = i + 1 := by omega
          subst hxi
          rcases hc with hc | hc
          · have := mt (hg (i + 1) hi).1.mpr hc
            rw [not_not, smallDiv_iff hi] at this
            exact this.2 a
          · have := (Nat.div_lt_iff_lt_mul (show 0 < i + 1 by omega)).mp hc
            omega
        have hmem : d ∈ {d | d.Prime ∧ i < d ∧ d ∣ j ∧ d * d ≤ j} := ⟨d1, d2, d3, d4⟩
        rw [hset] at hmem ⊢
        exact (hg j hj).2 ⟨d, hmem⟩
      · rw [if_neg hc]
        rw [not_or, not_not] at hc
        have hp : (i + 1).Prime := by
          have := (hg (i + 1) hi).1.mp hc.1
          rw [smallDiv_iff hi] at this
          by_contra h
          exact this ⟨h2, h⟩
        obtain ⟨v1, e1, r1⟩ := stride_spec (lim := lim) (off := 0) (e := n) (k := n)
          (f := fun _ _ => some (i + 1)) (fun _ => i + 1) (show 0 < i + 1 by omega) (by omega) (by omega)
          ((i + 1) * (i + 1)) (by omega) (dvd_mul_left _ _) r (fun _ _ _ _ => rfl)
        rw [e1]
        simp only
        refine ih v1 _ (by omega) r1 (fun j hj => ?_)
        simp only [Nat.zero_add]
        by_cases h : (i + 1) * (i + 1) ≤ j ∧ j < n ∧ i + 1 ∣ j
        · rw [if_pos h]
          refine ⟨⟨fun h' => by omega, fun h' => absurd ⟨i + 1, h2, hi, h.2.2, h.1⟩ h'⟩, fun _ => ⟨?_, ?_⟩⟩
          · exact ⟨hp, by omega, h.2.2, h.1⟩
          · rintro x ⟨_, hx, _⟩
            omega
        · rw [if_neg h]
          refine ⟨(hg j hj).1, ?_⟩
          have hset : {d | d.Prime ∧ i < d ∧ d ∣ j ∧ d * d ≤ j} = {d | d.Prime ∧ i + 1 < d ∧ d ∣ j ∧ d * d ≤ j} := by
            ext x
            simp only [Set.mem_ofPred_eq]
            refine ⟨fun ⟨a, b, c⟩ => ⟨a, ?_, c⟩, fun ⟨a, b, c⟩ => ⟨a, by omega, c⟩⟩
            by_contra hx
            have hxi : x = i + 1 := by omega
            subst hxi
            exact h ⟨c.2, hj, c.1⟩
          rintro ⟨d, hd⟩
          have hmem : d ∈ {d | d.Prime ∧ i < d ∧ d ∣ j ∧ d * d ≤ j} := hd
          rw [hset] at hmem ⊢
          exact (hg j hj).2 ⟨d, hmem⟩
    · rw [if_neg h2]
      have hi0 : i = 0 := by omega
      subst hi0
      exact ⟨v, g, rfl, r, hg⟩

/-- C12: `smallest_factor` stores the smallest prime factor of every composite index and 0
at the other indices, for `n ≥ 1`. -/
theorem C12_smallest_factor (lim n : Nat) (h1 : 1 ≤ n) (hlim : 2 * n ≤ lim) (spf : List Nat) (hs : spf.length = n) :
    smallestFactor lim spf n =
      some ((List.range n).map fun j => if 2 ≤ j ∧ ¬ j.Prime then j.minFac else 0) := by
  classical
  obtain ⟨v0, e0, r0⟩ := fill_spec (lim := lim) (off := 0) (e := n) (k := n) (f := fun _ _ => some 0) (fun _ => 0)
    (by omega) (by omega) 0 (le_refl 0) (hs ▸ Rep.self spf) (fun i _ _ => rfl)
  obtain ⟨v1, e1, r1⟩ := spfLoop1_spec lim n hlim _ v0 2 rfl (le_refl 2) (r0.congr (fun j hj => by
    rw [if_pos (by omega), if_neg]
    rintro ⟨d, h1, h2, _⟩
    omega))
  obtain ⟨v2, g, e2, r2, hg⟩ := spfLoop2_spec lim n hlim (n - 1) v1 _ (by omega) r1 (fun j hj => by
    refine ⟨by split <;> simp [*], ?_⟩
    rintro ⟨d, d1, d2, d3, d4⟩
    have := Nat.le_mul_self d
    omega)
  rw [smallestFactor, e0, Option.bind_some, e1, Option.bind_some, if_neg (by omega), e2, r2.eq_map,
    Option.some.injEq]
  apply List.map_congr_left
  intro j hj
  rw [List.mem_range] at hj
  obtain ⟨h0, hl⟩ := hg j hj
  rw [smallDiv_iff hj] at h0
  by_cases hc : 2 ≤ j ∧ ¬ j.Prime
  · rw [if_pos hc]
    have hmp := Nat.minFac_prime (show j ≠ 1 by omega)
    have hsq := Nat.minFac_sq_le_self (show 0 < j by omega) hc.2
    rw [pow_two] at hsq
    have hl := hl ⟨j.minFac, hmp, hmp.one_lt, Nat.minFac_dvd j, hsq⟩
    apply le_antisymm
    · exact hl.2 ⟨hmp, hmp.one_lt, Nat.minFac_dvd j, hsq⟩
    · exact Nat.minFac_le_of_dvd hl.1.1.two_le hl.1.2.2.1
  · rw [if_neg hc]
    exact h0.mpr hc

/-- The precondition `n ≥ 1` is needed. -/
theorem C12_smallest_factor_zero (lim : Nat) : smallestFactor lim [] 0 = none := by
  simp [smallestFactor, stride, spfLoop1]

/-! Concrete cases. -/

example : primePi (List.replicate 12 0) 12 [2, 3, 5, 7, 11, 0, 0] = some [0, 0, 1, 2, 2, 3, 3, 4, 4, 4, 4, 5] := by
  decide +kernel
example : primesBelow 12 = [2, 3, 5, 7, 11] := by decide +kernel
example : eulerPhi 1000 (List.replicate 12 0) 12 [2, 3, 5, 7, 11, 0] 5 =
    some [0, 1, 1, 2, 2, 4, 2, 6, 4, 6, 4, 10] := by decide +kernel
example : primeNu 1000 (List.replicate 12 0) 12 [2, 3, 5, 7, 11, 0] 5 =
    some [0, 0, 1, 1, 1, 1, 2, 1, 1, 1, 2, 1] := by decide +kernel
example : factor 1000 (List.replicate 12 0) 12 [2, 3, 5, 7, 11, 0] 5 =
    some [0, 1, 2, 3, 2, 5, 3, 7, 2, 3, 5, 11] := by decide +kernel
example : divisorSigma0 1000 (List.replicate 12 7) 12 = some [7, 1, 2, 2, 3, 2, 4, 2, 4, 3, 4, 2] := by
  decide +kernel
example : divisorSigma1 1000 (List.replicate 12 7) 12 = some [7, 1, 3, 4, 7, 6, 12, 8, 15, 13, 18, 12] := by
  decide +kernel
example : smallestFactor 1000 (List.replicate 12 7) 12 = some [0, 0, 0, 0, 2, 0, 2, 0, 2, 3, 2, 0] := by
  decide +kernel

end Altruct.Primes
