/-
C125: every history of calls on a `prime_holder` returns the right tables.
-/
import Verif.Holders.PrimeModel
import Verif.Primes.SegmentProps
import Verif.Primes.DivisorProps
import Verif.Ranges.Props

namespace Altruct.Holders

open Altruct.Primes
open ArithmeticFunction (moebius)

/-! ### Specification -/

/-- A sorted factorisation. -/
def SortedFactorization (vf : List (Nat × Nat)) (n : Nat) : Prop :=
  IsFactorization vf n ∧ (vf.map Prod.fst).Pairwise (· < ·)

/-- The divisors of `n`, in increasing order; with `maxd > 0` those up to `maxd`. -/
def SortedDivisors (vd : List Nat) (n maxd : Nat) : Prop :=
  vd.Pairwise (· < ·) ∧ ∀ x, x ∈ vd ↔ x ∣ n ∧ (maxd = 0 ∨ x ≤ maxd)

/-- What a call on a holder of size `sz` must return. -/
def Right (sz : Nat) : PHOp → PHRes → Prop
  | .size, r => r = .nat sz
  | .primes, r => r = .nat (primesBelow sz).length
  | .p, r => r = .nats (primesBelow sz)
  | .q, r => r = .nats ((List.range sz).map fun i => if i.Prime then 1 else 0)
  | .pf, r => ∃ v, r = .nats v ∧ v.length = sz ∧ v[0]? = some 0 ∧ v[1]? = some 1 ∧
      ∀ j, 2 ≤ j → j < sz → ∃ q, v[j]? = some q ∧ IsGreatest {x | x.Prime ∧ x ∣ j} q
  | .pi, r => r = .nats ((List.range sz).map Nat.primeCounting)
  | .phi, r => r = .nats ((List.range sz).map Nat.totient)
  | .mu, r => r = .ints ((List.range sz).map fun j => moebius j)
  | .nu, r => r = .nats ((List.range sz).map fun j => j.primeFactors.card)
  | .mertens, r => r = .ints ((List.range sz).map fun i => ∑ j ∈ Finset.range (i + 1), moebius j)
  | .factor n, r => ∃ vf, r = .pairs vf ∧ SortedFactorization vf n
  | .factors vn, r => ∃ vf, r = .pairs vf ∧ SortedFactorization vf vn.prod
  | .divisors n maxd, r => ∃ vd, r = .nats vd ∧ SortedDivisors vd n maxd
  | .divisorsL vn maxd, r => ∃ vd, r = .nats vd ∧ SortedDivisors vd vn.prod maxd
  | .divisorsF vf maxd, r => ∃ vd, r = .nats vd ∧ SortedDivisors vd (vf.map fun f => f.1 ^ f.2).prod maxd

/-- No product formed by `divisors` overflows. -/
def DivisorsFit (n maxd : Nat) : Prop :=
  maxd ≤ intMax ∧ (maxd = 0 → ∀ p, p.Prime → p ∣ n → n * p ≤ intMax)

/-- The calls with arguments in the range of the holder. -/
def Valid (sz : Nat) : PHOp → Prop
  | .factor n => 1 ≤ n ∧ n < sz
  | .factors vn => ∀ y ∈ vn, 1 ≤ y ∧ y < sz
  | .divisors n maxd => (1 ≤ n ∧ n < sz) ∧ DivisorsFit n maxd
  | .divisorsL vn maxd => (∀ y ∈ vn, 1 ≤ y ∧ y < sz) ∧ DivisorsFit vn.prod maxd
  | .divisorsF vf maxd => ∃ n, IsFactorization vf n ∧ DivisorsFit n maxd
  | _ => True

/-! ### The invariant -/

/-- Each cache is empty or right. -/
structure PHInv (sz : Nat) (h : PrimeHolder) : Prop where
  size : h.sz = sz
  pq : h.vq = [] ∨ (h.vq = ((List.range sz).map fun i => if i.Prime then 1 else 0) ∧ h.m = (primesBelow sz).length ∧
    ∃ rest, h.vp = primesBelow sz ++ 0 :: rest)
  pf : h.vpf = [] ∨ (h.vpf.length = sz ∧ h.vpf[0]? = some 0 ∧ h.vpf[1]? = some 1 ∧
      ∀ j, 2 ≤ j → j < sz → ∃ q, h.vpf[j]? = some q ∧ IsGreatest {x | x.Prime ∧ x ∣ j} q)
  pi : h.vpi = [] ∨ h.vpi = (List.range sz).map Nat.primeCounting
  phi : h.vphi = [] ∨ h.vphi = (List.range sz).map Nat.totient
  mu : h.vmu = [] ∨ h.vmu = (List.range sz).map fun j => moebius j
  nu : h.vnu = [] ∨ h.vnu = (List.range sz).map fun j => j.primeFactors.card
  mer : h.vmer = [] ∨ h.vmer = (List.range sz).map fun i => ∑ j ∈ Finset.range (i + 1), moebius j

theorem PHInv.make (sz : Nat) : PHInv sz (PrimeHolder.make sz) :=
  ⟨rfl, .inl rfl, .inl rfl, .inl rfl, .inl rfl, .inl rfl, .inl rfl, .inl rfl⟩

/-- The room made for the primes is enough; for `sz < 40` this is proved. -/
theorem small_estimate : ∀ sz, sz < 40 → (primesBelow sz).length < sz / 2 + 2 := by decide +kernel

section

variable {sz est : Nat} (h3 : 3 ≤ sz) (hlim : sz < 2 ^ 30) (hest : 40 ≤ sz → (primesBelow sz).length < est)
include h3 hlim

omit h3 in
theorem sqrt_lt : sz.sqrt < 2 ^ 15 := by
  rw [Nat.sqrt_lt]
  exact lt_of_lt_of_le hlim (by norm_num)

include hest

theorem ensurePq_spec {h : PrimeHolder} (i : PHInv sz h) :
    ∃ h', h.ensurePq est = some h' ∧ PHInv sz h' ∧ h'.vq = ((List.range sz).map fun i => if i.Prime then 1 else 0) ∧
      h'.m = (primesBelow sz).length ∧ ∃ rest, h'.vp = primesBelow sz ++ 0 :: rest := by
  have hs := sqrt_lt hlim
  rw [PrimeHolder.ensurePq]
  split
  · next hq =>
    simp only
    have hc : (primesBelow sz).length < (if sz < 40 then sz / 2 + 2 else est) := by
      split
      · next h => exact small_estimate sz h
      · exact hest (by omega)
    obtain ⟨p, q, e, ep, eq⟩ := C11_primes intMax sz (by rw [intMax]; omega) (by omega)
      (List.replicate (if sz < 40 then sz / 2 + 2 else est) 0) (List.replicate sz 0) (by rw [List.length_replicate]; exact hc)
      (by rw [List.length_replicate])
    rw [i.size, e, Option.map_some]
    have eq' : q = (List.range sz).map fun i => if i.Prime then 1 else 0 := by
      rw [eq, List.drop_of_length_le (by rw [List.length_replicate]), List.append_nil]
    have ep' : p = primesBelow sz ++ 0 :: (List.replicate (if sz < 40 then sz / 2 + 2 else est) 0).drop ((primesBelow sz).length + 1) := by
      rw [ep]; simp
    exact ⟨_, rfl, ⟨rfl, .inr ⟨eq', rfl, _, ep'⟩, i.pf, i.pi, i.phi, i.mu, i.nu, i.mer⟩, eq', rfl, _, ep'⟩
  · next hq =>
    rcases i.pq with h | h
    · exact absurd h hq
    · exact ⟨_, rfl, i, h⟩

omit h3 hlim hest in
theorem take_primes {p : List Nat} {m : Nat} (hm : m = (primesBelow sz).length) {rest : List Nat}
    (hp : p = primesBelow sz ++ 0 :: rest) : m ≤ p.length ∧ p.take m = primesBelow sz := by
  subst hm hp
  simp

theorem ensurePf_spec {h : PrimeHolder} (i : PHInv sz h) :
    ∃ h', h.ensurePf est = some h' ∧ PHInv sz h' ∧ h'.vpf.length = sz ∧ h'.vpf[0]? = some 0 ∧ h'.vpf[1]? = some 1 ∧
      ∀ j, 2 ≤ j → j < sz → ∃ q, h'.vpf[j]? = some q ∧ IsGreatest {x | x.Prime ∧ x ∣ j} q := by
  rw [PrimeHolder.ensurePf]
  split
  · obtain ⟨h', e, i', -, em, rest, ep⟩ := ensurePq_spec h3 hlim hest i
    obtain ⟨k1, k2⟩ := take_primes em ep
    obtain ⟨v, ev, hv⟩ := C12_factor intMax sz (by omega) (by rw [intMax]; omega) h'.vp h'.m k1 k2 (List.replicate sz 0) (by simp)
    rw [e, Option.bind_some, i'.size, ev, Option.map_some]
    exact ⟨_, rfl, ⟨rfl, i'.pq, .inr hv, i'.pi, i'.phi, i'.mu, i'.nu, i'.mer⟩, hv⟩
  · next hq =>
    rcases i.pf with h | h
    · exact absurd h hq
    · exact ⟨_, rfl, i, h⟩

theorem ensurePi_spec {h : PrimeHolder} (i : PHInv sz h) :
    ∃ h', h.ensurePi est = some h' ∧ PHInv sz h' ∧ h'.vpi = (List.range sz).map Nat.primeCounting := by
  rw [PrimeHolder.ensurePi]
  split
  · obtain ⟨h', e, i', -, em, rest, ep⟩ := ensurePq_spec h3 hlim hest i
    rw [e, Option.bind_some, i'.size, C12_prime_pi sz h3 h'.vp rest ep (List.replicate sz 0) (by simp), Option.map_some]
    exact ⟨_, rfl, ⟨rfl, i'.pq, i'.pf, .inr rfl, i'.phi, i'.mu, i'.nu, i'.mer⟩, rfl⟩
  · next hq =>
    rcases i.pi with h | h
    · exact absurd h hq
    · exact ⟨_, rfl, i, h⟩

theorem ensurePhi_spec {h : PrimeHolder} (i : PHInv sz h) :
    ∃ h', h.ensurePhi est = some h' ∧ PHInv sz h' ∧ h'.vphi = (List.range sz).map Nat.totient := by
  rw [PrimeHolder.ensurePhi]
  split
  · obtain ⟨h', e, i', -, em, rest, ep⟩ := ensurePq_spec h3 hlim hest i
    obtain ⟨k1, k2⟩ := take_primes em ep
    rw [e, Option.bind_some, i'.size, C12_euler_phi intMax sz (by rw [intMax]; omega) h'.vp h'.m k1 k2 (List.replicate sz 0) (by simp),
      Option.map_some]
    exact ⟨_, rfl, ⟨rfl, i'.pq, i'.pf, i'.pi, .inr rfl, i'.mu, i'.nu, i'.mer⟩, rfl⟩
  · next hq =>
    rcases i.phi with h | h
    · exact absurd h hq
    · exact ⟨_, rfl, i, h⟩

theorem ensureNu_spec {h : PrimeHolder} (i : PHInv sz h) :
    ∃ h', h.ensureNu est = some h' ∧ PHInv sz h' ∧ h'.vnu = (List.range sz).map fun j => j.primeFactors.card := by
  rw [PrimeHolder.ensureNu]
  split
  · obtain ⟨h', e, i', -, em, rest, ep⟩ := ensurePq_spec h3 hlim hest i
    obtain ⟨k1, k2⟩ := take_primes em ep
    rw [e, Option.bind_some, i'.size, C12_prime_nu intMax sz (by rw [intMax]; omega) h'.vp h'.m k1 k2 (List.replicate sz 0) (by simp),
      Option.map_some]
    exact ⟨_, rfl, ⟨rfl, i'.pq, i'.pf, i'.pi, i'.phi, i'.mu, .inr rfl, i'.mer⟩, rfl⟩
  · next hq =>
    rcases i.nu with h | h
    · exact absurd h hq
    · exact ⟨_, rfl, i, h⟩

theorem ensureMu_spec {h : PrimeHolder} (i : PHInv sz h) :
    ∃ h', h.ensureMu est = some h' ∧ PHInv sz h' ∧ h'.vmu = (List.range sz).map fun j => moebius j := by
  rw [PrimeHolder.ensureMu]
  split
  · obtain ⟨h', e, i', -, em, rest, ep⟩ := ensurePq_spec h3 hlim hest i
    have hs := sqrt_lt hlim
    rw [e, Option.bind_some, i'.size, C12_moebius_mu intMax sz (by omega) (by rw [intMax]; omega)
      (le_trans (Nat.mul_le_mul (show sz.sqrt + 1 ≤ 2 ^ 15 by omega) (show sz.sqrt + 1 ≤ 2 ^ 15 by omega)) (by rw [intMax]; norm_num))
      (List.replicate sz 0) (by simp), Option.map_some]
    exact ⟨_, rfl, ⟨rfl, i'.pq, i'.pf, i'.pi, i'.phi, .inr rfl, i'.nu, i'.mer⟩, rfl⟩
  · next hq =>
    rcases i.mu with h | h
    · exact absurd h hq
    · exact ⟨_, rfl, i, h⟩

omit h3 hlim hest in
theorem accumulate_map (f : Nat → Int) :
    Ranges.accumulate ((List.range sz).map f) = (List.range sz).map fun i => ∑ j ∈ Finset.range (i + 1), f j := by
  have r := Ranges.C61_accumulate ((List.range sz).map f)
  rw [List.length_map, List.length_range] at r
  rw [r.eq_map]
  apply List.map_congr_left
  intro i hi
  rw [List.mem_range] at hi
  rw [← List.map_take, List.take_range, min_eq_left (by omega), Finset.sum_range]
  rw [← List.sum_ofFn, List.ofFn_eq_map, ← List.map_coe_finRange_eq_range, List.map_map]
  rfl

theorem ensureMer_spec {h : PrimeHolder} (i : PHInv sz h) :
    ∃ h', h.ensureMer est = some h' ∧ PHInv sz h' ∧
      h'.vmer = (List.range sz).map fun i => ∑ j ∈ Finset.range (i + 1), moebius j := by
  rw [PrimeHolder.ensureMer]
  split
  · obtain ⟨h', e, i', ev⟩ := ensureMu_spec h3 hlim hest i
    rw [e, Option.map_some]
    have : Ranges.accumulate h'.vmu = (List.range sz).map fun i => ∑ j ∈ Finset.range (i + 1), moebius j := by
      rw [ev, accumulate_map]
    exact ⟨_, rfl, ⟨i'.size, i'.pq, i'.pf, i'.pi, i'.phi, i'.mu, i'.nu, .inr this⟩, this⟩
  · next hq =>
    rcases i.mer with h | h
    · exact absurd h hq
    · exact ⟨_, rfl, i, h⟩

omit h3 hlim hest in
theorem sortPairs_spec {vf : List (Nat × Nat)} {n : Nat} (h : IsFactorization vf n) : SortedFactorization (sortPairs vf) n := by
  have hp : (sortPairs vf).Perm vf := List.mergeSort_perm _ _
  have hn : ((sortPairs vf).map Prod.fst).Nodup := (hp.map Prod.fst).nodup_iff.mpr h.distinct
  refine ⟨⟨fun f hf => h.prime f (hp.mem_iff.mp hf), fun f hf => h.pos f (hp.mem_iff.mp hf), hn, ?_⟩, ?_⟩
  · rw [← h.prod]
    exact (hp.map _).prod_eq
  · have hs := List.pairwise_mergeSort (le := fun a b : Nat × Nat => decide (a.1 < b.1) || (decide (a.1 = b.1) && decide (a.2 ≤ b.2)))
      (by intro a b c; simp; omega) (by intro a b; simp; omega) vf
    rw [List.Nodup, List.pairwise_map] at hn
    rw [List.pairwise_map]
    refine (hs.and hn).imp ?_
    rintro a b ⟨h1, h2⟩
    simp at h1
    omega

theorem factorInt_spec {h : PrimeHolder} (i : PHInv sz h) (n : Nat) (h1 : 1 ≤ n) (hn : n < sz) :
    ∃ h' vf, h.factorInt est n = some (h', vf) ∧ PHInv sz h' ∧ SortedFactorization vf n := by
  obtain ⟨h', e, i', -, -, -, hv⟩ := ensurePf_spec h3 hlim hest i
  obtain ⟨w, ew, hw⟩ := C13_factor_integer h'.vpf n h1 (fun j hj hjn => by
    obtain ⟨q, hq, hg, -⟩ := hv j hj (by omega)
    exact ⟨q, hq, hg.1, hg.2⟩) []
  rw [PrimeHolder.factorInt, e, Option.bind_some, ew, Option.map_some, List.nil_append]
  exact ⟨_, _, rfl, i', sortPairs_spec hw⟩

theorem factorInts_spec {h : PrimeHolder} (i : PHInv sz h) (vn : List Nat) (hn : ∀ y ∈ vn, 1 ≤ y ∧ y < sz) :
    ∃ h' vf, h.factorInts est vn = some (h', vf) ∧ PHInv sz h' ∧ SortedFactorization vf vn.prod := by
  obtain ⟨h', e, i', -, -, -, hv⟩ := ensurePf_spec h3 hlim hest i
  obtain ⟨w, ew, hw⟩ := C13_factor_integer_product h'.vpf (sz - 1) (fun j hj hjn => by
    obtain ⟨q, hq, hg, -⟩ := hv j hj (by omega)
    exact ⟨q, hq, hg.1, hg.2⟩) vn (fun y hy => by have := hn y hy; omega) []
  rw [PrimeHolder.factorInts, e, Option.bind_some, ew, Option.map_some, List.nil_append]
  exact ⟨_, _, rfl, i', sortPairs_spec hw⟩

omit h3 hlim hest in
theorem divisors_fit {vf : List (Nat × Nat)} {n maxd : Nat} (h : IsFactorization vf n) (hf : DivisorsFit n maxd) :
    ∃ vd, Primes.divisors intMax vf maxd = some vd ∧ SortedDivisors vd n maxd := by
  obtain ⟨l, e, a, b⟩ := C14_divisors intMax vf n h maxd (by
    rcases Nat.eq_zero_or_pos maxd with h0 | h0
    · refine .inr ⟨h0, fun f hm => hf.2 h0 f.1 (h.prime f hm) ?_⟩
      rw [← h.prod]
      exact dvd_trans (dvd_pow_self f.1 (h.pos f hm).ne') (List.dvd_prod (List.mem_map.mpr ⟨f, hm, rfl⟩))
    · exact .inl ⟨h0, hf.1⟩)
  exact ⟨l, e, a, b⟩

theorem step_spec {h : PrimeHolder} (i : PHInv sz h) (op : PHOp) (ho : Valid sz op) :
    ∃ h' r, h.step est op = some (h', r) ∧ PHInv sz h' ∧ Right sz op r := by
  cases op with
  | size => exact ⟨_, _, rfl, i, by rw [i.size]; rfl⟩
  | primes =>
    obtain ⟨h', e, i', e1, em, rest, ep⟩ := ensurePq_spec h3 hlim hest i
    exact ⟨h', .nat h'.m, by rw [PrimeHolder.step, e]; rfl, i', by rw [em]; rfl⟩
  | p =>
    obtain ⟨h', e, i', e1, em, rest, ep⟩ := ensurePq_spec h3 hlim hest i
    exact ⟨h', .nats (h'.vp.take h'.m), by rw [PrimeHolder.step, e]; rfl, i', by rw [(take_primes em ep).2]; rfl⟩
  | q =>
    obtain ⟨h', e, i', e1, em, rest, ep⟩ := ensurePq_spec h3 hlim hest i
    exact ⟨h', .nats h'.vq, by rw [PrimeHolder.step, e]; rfl, i', by rw [e1]; rfl⟩
  | pf =>
    obtain ⟨h', e, i', hv⟩ := ensurePf_spec h3 hlim hest i
    exact ⟨h', .nats h'.vpf, by rw [PrimeHolder.step, e]; rfl, i', _, rfl, hv⟩
  | pi =>
    obtain ⟨h', e, i', hv⟩ := ensurePi_spec h3 hlim hest i
    exact ⟨h', .nats h'.vpi, by rw [PrimeHolder.step, e]; rfl, i', by rw [hv]; rfl⟩
  | phi =>
    obtain ⟨h', e, i', hv⟩ := ensurePhi_spec h3 hlim hest i
    exact ⟨h', .nats h'.vphi, by rw [PrimeHolder.step, e]; rfl, i', by rw [hv]; rfl⟩
  | mu =>
    obtain ⟨h', e, i', hv⟩ := ensureMu_spec h3 hlim hest i
    exact ⟨h', .ints h'.vmu, by rw [PrimeHolder.step, e]; rfl, i', by rw [hv]; rfl⟩
  | nu =>
    obtain ⟨h', e, i', hv⟩ := ensureNu_spec h3 hlim hest i
    exact ⟨h', .nats h'.vnu, by rw [PrimeHolder.step, e]; rfl, i', by rw [hv]; rfl⟩
  | mertens =>
    obtain ⟨h', e, i', hv⟩ := ensureMer_spec h3 hlim hest i
    exact ⟨h', .ints h'.vmer, by rw [PrimeHolder.step, e]; rfl, i', by rw [hv]; rfl⟩
  | factor n =>
    obtain ⟨h', vf, e, i', hv⟩ := factorInt_spec h3 hlim hest i n ho.1 ho.2
    exact ⟨h', .pairs vf, by rw [PrimeHolder.step, e]; rfl, i', vf, rfl, hv⟩
  | factors vn =>
    obtain ⟨h', vf, e, i', hv⟩ := factorInts_spec h3 hlim hest i vn ho
    exact ⟨h', .pairs vf, by rw [PrimeHolder.step, e]; rfl, i', vf, rfl, hv⟩
  | divisors n maxd =>
    obtain ⟨h', vf, e, i', hv⟩ := factorInt_spec h3 hlim hest i n ho.1.1 ho.1.2
    obtain ⟨vd, ed, hd⟩ := divisors_fit hv.1 ho.2
    exact ⟨h', .nats vd, by rw [PrimeHolder.step, e, Option.bind_some, ed]; rfl, i', vd, rfl, hd⟩
  | divisorsL vn maxd =>
    obtain ⟨h', vf, e, i', hv⟩ := factorInts_spec h3 hlim hest i vn ho.1
    obtain ⟨vd, ed, hd⟩ := divisors_fit hv.1 ho.2
    exact ⟨h', .nats vd, by rw [PrimeHolder.step, e, Option.bind_some, ed]; rfl, i', vd, rfl, hd⟩
  | divisorsF vf maxd =>
    obtain ⟨n, hf, hfit⟩ := ho
    obtain ⟨vd, ed, hd⟩ := divisors_fit hf hfit
    refine ⟨h, .nats vd, by rw [PrimeHolder.step, ed]; rfl, i, vd, rfl, ?_⟩
    rw [hf.prod]
    exact hd

theorem run_spec {h : PrimeHolder} (i : PHInv sz h) (ops : List PHOp) (ho : ∀ op ∈ ops, Valid sz op) :
    ∃ rs, h.run est ops = some rs ∧ List.Forall₂ (Right sz) ops rs := by
  induction ops generalizing h with
  | nil => exact ⟨[], rfl, .nil⟩
  | cons op ops ih =>
    obtain ⟨h', r, e, i', hr⟩ := step_spec h3 hlim hest i op (ho op (by simp))
    obtain ⟨rs, e2, hrs⟩ := ih i' (fun op hop => ho op (by simp [hop]))
    exact ⟨r :: rs, by rw [PrimeHolder.run, e, Option.bind_some, e2]; rfl, .cons hr hrs⟩

end

/-! ### The properties -/

/-- **C125**: every sequence of calls on a fresh holder of size 3 to 39 returns the right results, whatever was called before. -/
theorem C125_history_small (est sz : Nat) (h3 : 3 ≤ sz) (hs : sz < 40) (ops : List PHOp) (ho : ∀ op ∈ ops, Valid sz op) :
    ∃ rs, (PrimeHolder.make sz).run est ops = some rs ∧ List.Forall₂ (Right sz) ops rs :=
  run_spec h3 (by omega) (fun h => by omega) (PHInv.make sz) ops ho

/-- **C125**: the same for every size from 3 to 2^30, if the estimate `int(sz / (log(sz) - 1.1)) + 5` that the constructor's
tables are sized by exceeds the number of primes below `sz`.  Missing: a proof of that estimate. -/
theorem C125_history_partial (est sz : Nat) (h3 : 3 ≤ sz) (hs : sz < 2 ^ 30) (hest : 40 ≤ sz → (primesBelow sz).length < est)
    (ops : List PHOp) (ho : ∀ op ∈ ops, Valid sz op) :
    ∃ rs, (PrimeHolder.make sz).run est ops = some rs ∧ List.Forall₂ (Right sz) ops rs :=
  run_spec h3 hs hest (PHInv.make sz) ops ho

/-- **C125** (negative): `pi()` reads one cell past the elements of the vector of primes: on a copy of a holder, whose vector
has no such cell, it reads outside the allocation. -/
theorem C125_copy_pi : (((PrimeHolder.make 10).step 0 .p).bind fun r => r.1.copy.step 0 .pi).isNone = true ∧
    (((PrimeHolder.make 10).step 0 .p).bind fun r => r.1.step 0 .pi).isSome = true := by decide +kernel

/-- **C125** (negative): for `sz = 2` the table of `pi` says there is a prime up to 0. -/
theorem C125_pi_two : ((PrimeHolder.make 2).ensurePi 0).map PrimeHolder.vpi = some [1, 1] := by decide +kernel

example : ((PrimeHolder.make 13).run 0 [.primes, .p]).isSome = true := by decide +kernel
example : (((PrimeHolder.make 13).ensureMer 0).map PrimeHolder.vmer) = some [0, 1, 0, -1, -1, -2, -1, -2, -2, -2, -1, -2, -2] := by
  decide +kernel
example : ∀ op ∈ [PHOp.pi, .divisors 12 0, .factors [4, 6]], Valid 13 op := by
  have hp : ∀ p, p.Prime → p ∣ 12 → 12 * p ≤ intMax := fun p _ hd => by
    have := Nat.le_of_dvd (by norm_num) hd
    rw [intMax]; omega
  intro op hop
  simp only [List.mem_cons, List.not_mem_nil, or_false] at hop
  rcases hop with rfl | rfl | rfl
  · trivial
  · exact ⟨by omega, by rw [intMax]; omega, fun _ => hp⟩
  · intro y hy; simp at hy; omega
example : 40 ≤ 100 → (primesBelow 100).length < 100 / 3 := by decide +kernel

end Altruct.Holders
