/-
C121, first part: convolutions through the transforms.
-/
import Verif.PolyMod.Model
import Verif.Polynom.MulProps
import Verif.Fft.ConvProps
import Verif.Fft.InPlace
import Mathlib.Tactic.Ring
import Mathlib.Tactic.Linarith

namespace Altruct.PolyMod

open Base (powT)
open Fft (powLen fft dft cconv)
open Polynom (at' rd_at)

variable {β : Type} [CommRing β]

/-- Coefficient `j` of the product of two sequences. -/
def nconv (A B : Nat → Nat) (j : Nat) : Nat := ∑ i ∈ Finset.range (j + 1), A i * B (j - i)

/-- A cyclic convolution of short sequences is the ordinary one. -/
theorem cconv_short {F G : Nat → β} {a b l k : Nat} (hF : ∀ i, a < i → F i = 0) (hG : ∀ i, b < i → G i = 0)
    (hab : a + b < l) (hk : k < l) : cconv l F G k = ∑ i ∈ Finset.range (k + 1), F i * G (k - i) := by
  have h1 : ∀ i j, i < l → j < l → (if (i + j) % l = k then F i * G j else 0) =
      if j = k - i then (if i ≤ k then F i * G (k - i) else 0) else 0 := by
    intro i j hi hj
    by_cases hz : i ≤ a ∧ j ≤ b
    · rw [Nat.mod_eq_of_lt (by omega)]
      by_cases hij : i + j = k
      · rw [if_pos hij, if_pos (by omega), if_pos (by omega), show k - i = j by omega]
      · rw [if_neg hij]
        by_cases h2 : j = k - i
        · rw [if_pos h2, if_neg (by omega)]
        · rw [if_neg h2]
    · have h0 : F i * G j = 0 := by
        by_cases h3 : i ≤ a
        · rw [hG j (by omega), mul_zero]
        · rw [hF i (by omega), zero_mul]
      rw [h0, ite_self]
      by_cases h2 : j = k - i
      · rw [if_pos h2, ← h2, h0, ite_self]
      · rw [if_neg h2]
  rw [cconv]
  have h2 : ∀ i ∈ Finset.range l, (∑ j ∈ Finset.range l, if (i + j) % l = k then F i * G j else 0) =
      if i ≤ k then F i * G (k - i) else 0 := by
    intro i hi
    rw [Finset.mem_range] at hi
    rw [Finset.sum_congr rfl (fun j hj => h1 i j hi (Finset.mem_range.mp hj)), Finset.sum_ite_eq',
      if_pos (Finset.mem_range.mpr (by omega))]
  rw [Finset.sum_congr rfl h2]
  have h3 : ∑ i ∈ Finset.range (k + 1), (if i ≤ k then F i * G (k - i) else 0) =
      ∑ i ∈ Finset.range l, (if i ≤ k then F i * G (k - i) else 0) := by
    apply Finset.sum_subset
    · intro i hi
      rw [Finset.mem_range] at hi ⊢
      omega
    · intro i _ hi
      rw [Finset.mem_range] at hi
      rw [if_neg (by omega)]
  rw [← h3]
  apply Finset.sum_congr rfl
  intro i hi
  rw [Finset.mem_range] at hi
  rw [if_pos (by omega)]

theorem cconv_nat {A B : Nat → Nat} {a b l k : Nat} (hA : ∀ i, a < i → A i = 0) (hB : ∀ i, b < i → B i = 0)
    (hab : a + b < l) (hk : k < l) :
    cconv l (fun i => ((A i : Nat) : β)) (fun i => ((B i : Nat) : β)) k = ((nconv A B k : Nat) : β) := by
  rw [cconv_short (a := a) (b := b) (fun i hi => by rw [hA i hi, Nat.cast_zero]) (fun i hi => by rw [hB i hi, Nat.cast_zero]) hab hk]
  rw [nconv]; push_cast; rfl

theorem dft_lin (n : Nat) (w c : β) (X Y : Nat → β) (j : Nat) :
    dft n w (fun k => (X k + Y k) * c) j = (dft n w X j + dft n w Y j) * c := by
  rw [dft, dft, dft, ← Finset.sum_add_distrib, Finset.sum_mul]
  exact Finset.sum_congr rfl fun i _ => by ring

theorem dft_scale (n : Nat) (w c : β) (X : Nat → β) (j : Nat) : dft n w (fun k => X k * c) j = dft n w X j * c := by
  rw [dft, dft, Finset.sum_mul]
  exact Finset.sum_congr rfl fun i _ => by ring

theorem dft_add (n : Nat) (w : β) (X Y : Nat → β) (j : Nat) : dft n w (fun k => X k + Y k) j = dft n w X j + dft n w Y j := by
  rw [dft, dft, dft, ← Finset.sum_add_distrib]
  exact Finset.sum_congr rfl fun i _ => by ring

/-- The inverse root. -/
theorem iroot_half {L : Nat} {w : β} (hw : 0 < L → w ^ 2 ^ (L - 1) = -1) : 0 < L → (w ^ (2 ^ L - 1)) ^ 2 ^ (L - 1) = -1 := by
  intro hL
  rw [← pow_mul, Nat.mul_comm, pow_mul, hw hL]
  apply Odd.neg_one_pow
  obtain ⟨q, rfl⟩ : ∃ q, L = q + 1 := ⟨L - 1, by omega⟩
  have := Nat.two_pow_pos q
  refine ⟨2 ^ q - 1, ?_⟩
  rw [pow_succ]
  omega

theorem fft_id {L : Nat} {root : β} (hr : 0 < L → root ^ 2 ^ (L - 1) = -1) {data : List β} {D : Nat → β}
    (hd : Rep data (2 ^ L) D) :
    ∃ data', fft (fun w : β => w) (2 ^ L) root data = some data' ∧ Rep data' (2 ^ L) (dft (2 ^ L) root D) :=
  Fft.C42_fft (MonoidHom.id β) (root := root) hr hd

/-- A coefficient of a polynomial of degree `l`, as a number. -/
def cf {M : Nat} (p : List (ZMod M)) (l i : Nat) : Nat := if i ≤ l then coef (at' p i) else 0

theorem cf_zero {M : Nat} (p : List (ZMod M)) (l : Nat) {i : Nat} (h : l < i) : cf p l i = 0 := by
  rw [cf, if_neg (by omega)]

theorem cf_lt {M : Nat} (p : List (ZMod M)) (l i : Nat) : cf p l i < 2 ^ 32 := by
  rw [cf]
  split_ifs
  · exact Nat.mod_lt _ (by norm_num)
  · norm_num

theorem convHilo_spec {M : Nat} {p : List (ZMod M)} {l n : Nat} (hp : l < p.length) (hn : l < n) :
    ∃ c : List β × List β, convHilo p l (List.replicate n 0, List.replicate n 0) = some c ∧
      Rep c.1 n (fun i => ((cf p l i >>> 16 : Nat) : β)) ∧ Rep c.2 n (fun i => ((cf p l i &&& 0xFFFF : Nat) : β)) := by
  obtain ⟨c, e, h1, h2⟩ := forUp_spec (body := fun i (hl : List β × List β) => (rd p i).bind fun x =>
      (wr hl.1 i ((coef x >>> 16 : Nat) : β)).bind fun hi =>
      (wr hl.2 i ((coef x &&& 0xFFFF : Nat) : β)).map fun lo => (hi, lo))
    (fun k hl => Rep hl.1 n (fun i => if i < k then ((cf p l i >>> 16 : Nat) : β) else 0) ∧
      Rep hl.2 n (fun i => if i < k then ((cf p l i &&& 0xFFFF : Nat) : β) else 0))
    (a := 0) (n := l + 1) (s := (List.replicate n 0, List.replicate n 0)) (by omega)
    ⟨(Rep.replicate n 0).congr fun i _ => by simp, (Rep.replicate n 0).congr fun i _ => by simp⟩
    (by
      rintro i ⟨hi, lo⟩ _ hil ⟨g1, g2⟩
      have hc : cf p l i = coef (at' p i) := by rw [cf, if_pos (by omega)]
      refine ⟨(hi.set i _, lo.set i _), by
        rw [rd_at (by omega), Option.bind_some, g1.wr (by omega), Option.bind_some, g2.wr (by omega)]; rfl, ?_, ?_⟩
      · refine (g1.set i _).congr fun j hj => ?_
        by_cases hji : j = i
        · subst hji; rw [Function.update_self, if_pos (by omega), hc]
        · rw [Function.update_of_ne hji]
          by_cases h : j < i
          · rw [if_pos h, if_pos (by omega)]
          · rw [if_neg h, if_neg (by omega)]
      · refine (g2.set i _).congr fun j hj => ?_
        by_cases hji : j = i
        · subst hji; rw [Function.update_self, if_pos (by omega), hc]
        · rw [Function.update_of_ne hji]
          by_cases h : j < i
          · rw [if_pos h, if_pos (by omega)]
          · rw [if_neg h, if_neg (by omega)])
  refine ⟨c, e, h1.congr fun i hi => ?_, h2.congr fun i hi => ?_⟩
  · by_cases h : i < l + 1
    · rw [if_pos h]
    · rw [if_neg h, cf_zero p l (by omega)]; simp
  · by_cases h : i < l + 1
    · rw [if_pos h]
    · rw [if_neg h, cf_zero p l (by omega)]; simp

theorem upd_lt {X Y : Nat → β} {i j : Nat} {x : β} (hx : x = Y i) :
    Function.update (fun j => if j < i then Y j else X j) i x j = if j < i + 1 then Y j else X j := by
  by_cases hji : j = i
  · subst hji; rw [Function.update_self, if_pos (by omega), hx]
  · rw [Function.update_of_ne hji]
    by_cases h : j < i
    · rw [if_pos h, if_pos (by omega)]
    · rw [if_neg h, if_neg (by omega)]

theorem hiloLoop_spec (sc : β → β) {n : Nat} {q : Quad β} {a b c d : Nat → β} (ha : Rep q.1 n a) (hb : Rep q.2.1 n b)
    (hc : Rep q.2.2.1 n c) (hd : Rep q.2.2.2 n d) :
    ∃ q', forUp (hiloStep sc) 0 n q = some q' ∧ Rep q'.1 n (fun j => sc (a j * c j)) ∧
      Rep q'.2.1 n (fun j => sc (a j * d j + c j * b j)) ∧ Rep q'.2.2.2 n (fun j => sc (b j * d j)) := by
  obtain ⟨q', e, h1, h2, h3, h4⟩ := forUp_spec (body := hiloStep sc)
    (fun k q => Rep q.1 n (fun j => if j < k then sc (a j * c j) else a j) ∧
      Rep q.2.1 n (fun j => if j < k then sc (a j * d j + c j * b j) else b j) ∧ Rep q.2.2.1 n c ∧
      Rep q.2.2.2 n (fun j => if j < k then sc (b j * d j) else d j))
    (a := 0) (n := n) (s := q) (by omega)
    ⟨ha.congr fun i _ => by simp, hb.congr fun i _ => by simp, hc, hd.congr fun i _ => by simp⟩
    (by
      rintro i ⟨v1, v2, v3, v4⟩ _ hin ⟨g1, g2, g3, g4⟩
      dsimp only at g1 g2 g3 g4
      refine ⟨(v1.set i (sc (a i * c i)), v2.set i (sc (a i * d i + c i * b i)), v3, v4.set i (sc (b i * d i))), ?_, ?_, ?_, g3, ?_⟩
      · rw [hiloStep]
        dsimp only
        rw [g1.rd hin, Option.bind_some, g2.rd hin, Option.bind_some, g3.rd hin, Option.bind_some, g4.rd hin, Option.bind_some]
        simp only [lt_irrefl, if_false]
        rw [g1.wr hin, Option.bind_some, g2.wr hin, Option.bind_some, g4.wr hin]; rfl
      · exact (g1.set i _).congr fun j _ => upd_lt rfl
      · exact (g2.set i _).congr fun j _ => upd_lt (Y := fun j => sc (a j * d j + c j * b j)) rfl
      · exact (g4.set i _).congr fun j _ => upd_lt (Y := fun j => sc (b j * d j)) rfl)
  exact ⟨q', e, h1.congr fun i hi => by rw [if_pos hi], h2.congr fun i hi => by rw [if_pos hi],
    h4.congr fun i hi => by rw [if_pos hi]⟩

/-- The three convolutions of `hilo`. -/
theorem hilo_spec {M : Nat} {sc : β → β} {c : β} (hsc : ∀ x, sc x = x * c) {L : Nat} {w iw : β}
    (hw : 0 < L → w ^ 2 ^ (L - 1) = -1) (hiw : iw = w ^ (2 ^ L - 1)) {p1 p2 : List (ZMod M)} {l1 l2 : Nat}
    (h1 : l1 < p1.length) (h2 : l2 < p2.length) (hL : l1 + l2 < 2 ^ L) :
    ∃ t, hilo sc w iw (2 ^ L) p1 l1 p2 l2 = some t ∧
      Rep t.1 (2 ^ L) (fun j => ((nconv (fun i => cf p1 l1 i &&& 0xFFFF) (fun i => cf p2 l2 i &&& 0xFFFF) j : Nat) : β) *
        (((2 ^ L : Nat) : β) * c)) ∧
      Rep t.2.1 (2 ^ L) (fun j => ((nconv (fun i => cf p1 l1 i &&& 0xFFFF) (fun i => cf p2 l2 i >>> 16) j +
        nconv (fun i => cf p2 l2 i &&& 0xFFFF) (fun i => cf p1 l1 i >>> 16) j : Nat) : β) * (((2 ^ L : Nat) : β) * c)) ∧
      Rep t.2.2 (2 ^ L) (fun j => ((nconv (fun i => cf p1 l1 i >>> 16) (fun i => cf p2 l2 i >>> 16) j : Nat) : β) *
        (((2 ^ L : Nat) : β) * c)) := by
  subst hiw
  obtain ⟨c1, e1, c1h, c1l⟩ := convHilo_spec (β := β) (n := 2 ^ L) h1 (by omega)
  obtain ⟨c2, e2, c2h, c2l⟩ := convHilo_spec (β := β) (n := 2 ^ L) h2 (by omega)
  obtain ⟨d1, f1, r1⟩ := fft_id hw c1h
  obtain ⟨d2, f2, r2⟩ := fft_id hw c1l
  obtain ⟨d3, f3, r3⟩ := fft_id hw c2h
  obtain ⟨d4, f4, r4⟩ := fft_id hw c2l
  obtain ⟨q, e3, q1, q2, q3⟩ := hiloLoop_spec sc (q := (d2, d1, d4, d3)) r2 r1 r4 r3
  have hiw := iroot_half hw
  obtain ⟨x3, g3, s3⟩ := fft_id hiw q3
  obtain ⟨x2, g2, s2⟩ := fft_id hiw q2
  obtain ⟨x1, g1, s1⟩ := fft_id hiw q1
  have z1 : ∀ i, l1 < i → cf p1 l1 i >>> 16 = 0 := fun i hi => by rw [cf_zero _ _ hi]; rfl
  have z1' : ∀ i, l1 < i → cf p1 l1 i &&& 0xFFFF = 0 := fun i hi => by rw [cf_zero _ _ hi]; rfl
  have z2 : ∀ i, l2 < i → cf p2 l2 i >>> 16 = 0 := fun i hi => by rw [cf_zero _ _ hi]; rfl
  have z2' : ∀ i, l2 < i → cf p2 l2 i &&& 0xFFFF = 0 := fun i hi => by rw [cf_zero _ _ hi]; rfl
  refine ⟨(x1, x2, x3), ?_, s1.congr fun j hj => ?_, s2.congr fun j hj => ?_, s3.congr fun j hj => ?_⟩
  · rw [hilo]
    simp only [e1, e2, f1, f2, f3, f4, e3, g1, g2, g3, Option.bind_eq_bind, Option.bind_some]
  · simp only [hsc]
    rw [dft_scale, Fft.dft_conv hw _ _ hj, cconv_nat z1' z2' hL hj]
    ring
  · simp only [hsc]
    rw [dft_lin, Fft.dft_conv hw _ _ hj, Fft.dft_conv hw _ _ hj, cconv_nat z1' z2 hL hj, cconv_nat z2' z1 (by omega) hj]
    push_cast
    ring
  · simp only [hsc]
    rw [dft_scale, Fft.dft_conv hw _ _ hj, cconv_nat z1 z2 hL hj]
    ring

theorem conv210_spec {M : Nat} {p : List (ZMod M)} {l n : Nat} (hp : l < p.length) (hn : l < n) :
    ∃ c : List β × List β × List β, conv210 p l (List.replicate n 0, List.replicate n 0, List.replicate n 0) = some c ∧
      Rep c.1 n (fun i => ((cf p l i >>> 22 : Nat) : β)) ∧ Rep c.2.1 n (fun i => (((cf p l i >>> 11) &&& 0x7FF : Nat) : β)) ∧
      Rep c.2.2 n (fun i => ((cf p l i &&& 0x7FF : Nat) : β)) := by
  obtain ⟨c, e, h1, h2, h3⟩ := forUp_spec (body := fun i (c : List β × List β × List β) => (rd p i).bind fun x =>
      (wr c.1 i ((coef x >>> 22 : Nat) : β)).bind fun c2 => (wr c.2.1 i (((coef x >>> 11) &&& 0x7FF : Nat) : β)).bind fun c1 =>
      (wr c.2.2 i ((coef x &&& 0x7FF : Nat) : β)).map fun c0 => (c2, c1, c0))
    (fun k c => Rep c.1 n (fun i => if i < k then ((cf p l i >>> 22 : Nat) : β) else 0) ∧
      Rep c.2.1 n (fun i => if i < k then (((cf p l i >>> 11) &&& 0x7FF : Nat) : β) else 0) ∧
      Rep c.2.2 n (fun i => if i < k then ((cf p l i &&& 0x7FF : Nat) : β) else 0))
    (a := 0) (n := l + 1) (s := (List.replicate n 0, List.replicate n 0, List.replicate n 0)) (by omega)
    ⟨(Rep.replicate n 0).congr fun i _ => by simp, (Rep.replicate n 0).congr fun i _ => by simp,
      (Rep.replicate n 0).congr fun i _ => by simp⟩
    (by
      rintro i ⟨v1, v2, v3⟩ _ hil ⟨g1, g2, g3⟩
      have hc : cf p l i = coef (at' p i) := by rw [cf, if_pos (by omega)]
      refine ⟨(v1.set i _, v2.set i _, v3.set i _), by
        rw [rd_at (by omega), Option.bind_some, g1.wr (by omega), Option.bind_some, g2.wr (by omega), Option.bind_some,
          g3.wr (by omega)]; rfl, ?_, ?_, ?_⟩
      · exact (g1.set i _).congr fun j hj => upd_lt (β := β) (X := fun _ => 0) (Y := fun i : Nat => ((cf p l i >>> 22 : Nat) : β)) (by rw [hc])
      · exact (g2.set i _).congr fun j hj =>
          upd_lt (β := β) (X := fun _ => 0) (Y := fun i : Nat => (((cf p l i >>> 11) &&& 0x7FF : Nat) : β)) (by rw [hc])
      · exact (g3.set i _).congr fun j hj => upd_lt (β := β) (X := fun _ => 0) (Y := fun i : Nat => ((cf p l i &&& 0x7FF : Nat) : β)) (by rw [hc]))
  refine ⟨c, e, h1.congr fun i hi => ?_, h2.congr fun i hi => ?_, h3.congr fun i hi => ?_⟩
  all_goals
    by_cases h : i < l + 1
    · rw [if_pos h]
    · rw [if_neg h, cf_zero p l (by omega)]; simp

/-- The six arrays hold the given sequences. -/
structure Rep6 (q : Hexa β) (n : Nat) (a2 a1 a0 b2 b1 b0 : Nat → β) : Prop where
  a2 : Rep q.a2 n a2
  a1 : Rep q.a1 n a1
  a0 : Rep q.a0 n a0
  b2 : Rep q.b2 n b2
  b1 : Rep q.b1 n b1
  b0 : Rep q.b0 n b0

theorem fft6_spec {L : Nat} {w : β} (hw : 0 < L → w ^ 2 ^ (L - 1) = -1) {q : Hexa β} {a2 a1 a0 b2 b1 b0 : Nat → β}
    (h : Rep6 q (2 ^ L) a2 a1 a0 b2 b1 b0) : ∃ q', fft6 (2 ^ L) w q = some q' ∧
      Rep6 q' (2 ^ L) (dft (2 ^ L) w a2) (dft (2 ^ L) w a1) (dft (2 ^ L) w a0) (dft (2 ^ L) w b2) (dft (2 ^ L) w b1)
        (dft (2 ^ L) w b0) := by
  obtain ⟨x1, e1, r1⟩ := fft_id hw h.a2
  obtain ⟨x2, e2, r2⟩ := fft_id hw h.a1
  obtain ⟨x3, e3, r3⟩ := fft_id hw h.a0
  obtain ⟨x4, e4, r4⟩ := fft_id hw h.b2
  obtain ⟨x5, e5, r5⟩ := fft_id hw h.b1
  obtain ⟨x6, e6, r6⟩ := fft_id hw h.b0
  refine ⟨{ a2 := x1, a1 := x2, a0 := x3, b2 := x4, b1 := x5, b0 := x6 }, ?_, ⟨r1, r2, r3, r4, r5, r6⟩⟩
  rw [fft6]
  simp only [e1, e2, e3, e4, e5, e6, Option.bind_eq_bind, Option.bind_some]

theorem bigLoop_spec {n : Nat} {q : Hexa β} {a2 a1 a0 b2 b1 b0 : Nat → β} (h : Rep6 q n a2 a1 a0 b2 b1 b0) :
    ∃ q', forUp bigStep 0 n q = some q' ∧ Rep6 q' n (fun j => a2 j * b2 j) (fun j => a1 j * b1 j) (fun j => a0 j * b0 j)
      (fun j => (a2 j + a1 j) * (b2 j + b1 j)) (fun j => (a1 j + a0 j) * (b1 j + b0 j))
      (fun j => (a2 j + a1 j + a0 j) * (b2 j + b1 j + b0 j)) := by
  obtain ⟨q', e, h'⟩ := forUp_spec (body := bigStep)
    (fun k q => Rep6 q n (fun j => if j < k then a2 j * b2 j else a2 j) (fun j => if j < k then a1 j * b1 j else a1 j)
      (fun j => if j < k then a0 j * b0 j else a0 j) (fun j => if j < k then (a2 j + a1 j) * (b2 j + b1 j) else b2 j)
      (fun j => if j < k then (a1 j + a0 j) * (b1 j + b0 j) else b1 j)
      (fun j => if j < k then (a2 j + a1 j + a0 j) * (b2 j + b1 j + b0 j) else b0 j))
    (a := 0) (n := n) (s := q) (by omega)
    ⟨h.a2.congr fun i _ => by simp, h.a1.congr fun i _ => by simp, h.a0.congr fun i _ => by simp,
      h.b2.congr fun i _ => by simp, h.b1.congr fun i _ => by simp, h.b0.congr fun i _ => by simp⟩
    (by
      intro i q _ hin g
      refine ⟨⟨q.a2.set i (a2 i * b2 i), q.a1.set i (a1 i * b1 i), q.a0.set i (a0 i * b0 i),
        q.b2.set i ((a2 i + a1 i) * (b2 i + b1 i)), q.b1.set i ((a1 i + a0 i) * (b1 i + b0 i)),
        q.b0.set i ((a2 i + a1 i + a0 i) * (b2 i + b1 i + b0 i))⟩, ?_, ⟨?_, ?_, ?_, ?_, ?_, ?_⟩⟩
      · rw [bigStep]
        simp only [g.a2.rd hin, g.a1.rd hin, g.a0.rd hin, g.b2.rd hin, g.b1.rd hin, g.b0.rd hin, Option.bind_eq_bind,
          Option.bind_some, lt_irrefl, if_false, g.a2.wr hin, g.a1.wr hin, g.a0.wr hin, g.b2.wr hin, g.b1.wr hin, g.b0.wr hin]
      · exact (g.a2.set i _).congr fun j _ => upd_lt (Y := fun j => a2 j * b2 j) rfl
      · exact (g.a1.set i _).congr fun j _ => upd_lt (Y := fun j => a1 j * b1 j) rfl
      · exact (g.a0.set i _).congr fun j _ => upd_lt (Y := fun j => a0 j * b0 j) rfl
      · exact (g.b2.set i _).congr fun j _ => upd_lt (Y := fun j => (a2 j + a1 j) * (b2 j + b1 j)) rfl
      · exact (g.b1.set i _).congr fun j _ => upd_lt (Y := fun j => (a1 j + a0 j) * (b1 j + b0 j)) rfl
      · exact (g.b0.set i _).congr fun j _ => upd_lt (Y := fun j => (a2 j + a1 j + a0 j) * (b2 j + b1 j + b0 j)) rfl)
  exact ⟨q', e, ⟨h'.a2.congr fun i hi => by rw [if_pos hi], h'.a1.congr fun i hi => by rw [if_pos hi],
    h'.a0.congr fun i hi => by rw [if_pos hi], h'.b2.congr fun i hi => by rw [if_pos hi],
    h'.b1.congr fun i hi => by rw [if_pos hi], h'.b0.congr fun i hi => by rw [if_pos hi]⟩⟩

/-- Back from the transforms of two short sequences of numbers. -/
theorem dft_back {L : Nat} {w : β} (hw : 0 < L → w ^ 2 ^ (L - 1) = -1) {A B : Nat → Nat} {a b j : Nat} (hA : ∀ i, a < i → A i = 0)
    (hB : ∀ i, b < i → B i = 0) (hab : a + b < 2 ^ L) (hj : j < 2 ^ L) {X Y : Nat → β}
    (hX : ∀ k, X k = dft (2 ^ L) w (fun i => ((A i : Nat) : β)) k) (hY : ∀ k, Y k = dft (2 ^ L) w (fun i => ((B i : Nat) : β)) k) :
    dft (2 ^ L) (w ^ (2 ^ L - 1)) (fun k => X k * Y k) j = ((nconv A B j : Nat) : β) * (((2 ^ L : Nat) : β) * 1) := by
  simp only [hX, hY]
  rw [Fft.dft_conv hw _ _ hj, cconv_nat hA hB hab hj]
  ring

/-! ### Putting the blocks together -/

theorem nconv_comm (A B : Nat → Nat) (j : Nat) : nconv A B j = nconv B A j := by
  rw [nconv, nconv, ← Finset.sum_range_reflect]
  refine Finset.sum_congr rfl fun i hi => ?_
  rw [Finset.mem_range] at hi
  rw [show j + 1 - 1 - i = j - i by omega, show j - (j - i) = i by omega, Nat.mul_comm]

theorem nconv_le {A B : Nat → Nat} {a b : Nat} (hA : ∀ i, A i ≤ a) (hB : ∀ i, B i ≤ b) (j : Nat) :
    nconv A B j ≤ (j + 1) * (a * b) := by
  rw [nconv]
  refine (Finset.sum_le_sum fun i _ => Nat.mul_le_mul (hA i) (hB (j - i))).trans ?_
  rw [Finset.sum_const, Finset.card_range, smul_eq_mul]

theorem nconv_hilo (A B A1 A0 B1 B0 : Nat → Nat) (s : Nat) (hA : ∀ i, A i = A1 i * s + A0 i) (hB : ∀ i, B i = B1 i * s + B0 i)
    (j : Nat) : nconv A B j = nconv A1 B1 j * (s * s) + (nconv A0 B1 j + nconv B0 A1 j) * s + nconv A0 B0 j := by
  rw [nconv_comm B0 A1]
  simp only [nconv, Finset.sum_mul, ← Finset.sum_add_distrib]
  refine Finset.sum_congr rfl fun i _ => ?_
  rw [hA, hB]
  ring

theorem and_mod (x k : Nat) : x &&& (2 ^ k - 1) = x % 2 ^ k := Nat.and_two_pow_sub_one_eq_mod x k

theorem split16 (x : Nat) : x = (x >>> 16) * 2 ^ 16 + (x &&& 0xFFFF) := by
  have := and_mod x 16
  rw [show (0xFFFF : Nat) = 2 ^ 16 - 1 by norm_num, this, Nat.shiftRight_eq_div_pow]
  omega

theorem split11 (x : Nat) : x = (x >>> 22) * 2 ^ 22 + ((x >>> 11) &&& 0x7FF) * 2 ^ 11 + (x &&& 0x7FF) := by
  have h := and_mod x 11
  have h' := and_mod (x >>> 11) 11
  rw [show (0x7FF : Nat) = 2 ^ 11 - 1 by norm_num, h, h', Nat.shiftRight_eq_div_pow, Nat.shiftRight_eq_div_pow]
  omega

/-- The identity behind `_mul_fft_big`. -/
theorem nconv_210 (A B A2 A1 A0 B2 B1 B0 : Nat → Nat) (hA : ∀ i, A i = A2 i * 2 ^ 22 + A1 i * 2 ^ 11 + A0 i)
    (hB : ∀ i, B i = B2 i * 2 ^ 22 + B1 i * 2 ^ 11 + B0 i) (j : Nat) :
    ((nconv A B j : Nat) : β) =
      (2047 * (nconv A2 B2 j : Nat) * 2 ^ 11 + (2047 * (nconv (fun i => A2 i + A1 i) (fun i => B2 i + B1 i) j : Nat) +
        (nconv (fun i => A2 i + A1 i + A0 i) (fun i => B2 i + B1 i + B0 i) j : Nat))) * 2 ^ 22 -
      (2047 * (2047 * (nconv A1 B1 j : Nat) + (nconv (fun i => A1 i + A0 i) (fun i => B1 i + B0 i) j : Nat)) * 2 ^ 11 +
        2047 * (nconv A0 B0 j : Nat)) := by
  simp only [nconv, Nat.cast_sum, Nat.cast_mul, Nat.cast_add, Finset.mul_sum, Finset.sum_mul, ← Finset.sum_add_distrib,
    ← Finset.sum_sub_distrib]
  refine Finset.sum_congr rfl fun i _ => ?_
  rw [hA, hB]
  push_cast
  ring

/-- The product of the coefficients as numbers is the product of the polynomials. -/
theorem nconv_cv {M : Nat} [NeZero M] (hM : M < 2 ^ 32) (p1 p2 : List (ZMod M)) (l1 l2 j : Nat) :
    ((nconv (cf p1 l1) (cf p2 l2) j : Nat) : ZMod M) = Polynom.cv l1 (at' p1) l2 (at' p2) j := by
  have hcf : ∀ (p : List (ZMod M)) l i, ((cf p l i : Nat) : ZMod M) = if i ≤ l then at' p i else 0 := by
    intro p l i
    rw [cf]
    split_ifs
    · rw [coef, Nat.mod_eq_of_lt ((ZMod.val_lt _).trans hM), ZMod.natCast_zmod_val]
    · exact Nat.cast_zero
  rw [Polynom.cv_eq_sum, nconv]
  push_cast
  exact Finset.sum_congr rfl fun i _ => by rw [hcf, hcf]

theorem outLoop_spec {M : Nat} {f : Nat → Option (ZMod M)} {g : Nat → ZMod M} {lr : Nat} {pr : List (ZMod M)}
    (hlr : lr < pr.length) (hf : ∀ i, i ≤ lr → f i = some (g i)) :
    ∃ pr', outLoop f lr pr = some pr' ∧ pr'.length = pr.length ∧ ∀ j, at' pr' j = if j ≤ lr then g j else at' pr j := by
  obtain ⟨pr', e, h1, h2⟩ := forUp_spec (body := fun i pr => (f i).bind fun x => wr pr i x)
    (fun k v => v.length = pr.length ∧ ∀ j, at' v j = if j < k then g j else at' pr j)
    (a := 0) (n := lr + 1) (s := pr) (by omega) ⟨rfl, fun j => by simp⟩
    (by
      rintro i v _ hi ⟨g1, g2⟩
      refine ⟨v.set i (g i), by rw [hf i (by omega), Option.bind_some, wr, if_pos (by omega)], by simpa using g1, fun j => ?_⟩
      rw [Polynom.at'_set, g2]
      by_cases hji : j = i
      · rw [if_pos ⟨hji, by omega⟩, if_pos (by omega), hji]
      · rw [if_neg (by tauto)]
        by_cases h : j < i
        · rw [if_pos h, if_pos (by omega)]
        · rw [if_neg h, if_neg (by omega)])
  refine ⟨pr', e, h1, fun j => ?_⟩
  rw [h2]
  by_cases h : j ≤ lr
  · rw [if_pos (by omega), if_pos h]
  · rw [if_neg (by omega), if_neg h]

/-- The size of the transforms. -/
theorem nextPow2_spec {l : Nat} {Q : Nat} (h : l ≤ 2 ^ Q) : ∃ L, nextPow2 l = 2 ^ L ∧ L ≤ Q ∧ l ≤ 2 ^ L := by
  have := Fft.powLen_spec h Q 0 (by omega)
  rwa [pow_zero] at this

end Altruct.PolyMod
