/-
Preflows and heights.
-/
import Mathlib.Order.Interval.Finset.Nat
import Verif.GraphAlg.DinicProps
import Verif.PushRelabel.Model

namespace Altruct.PushRelabel

open GraphAlg Finset

/-- More can be sent from `u` to `v`, and it goes down. -/
def Adm (c x : Nat → Nat → Int) (h : Nat → Nat) (u v : Nat) : Prop := x u v < c u v ∧ h v < h u

/-- A preflow `x` (with net flows) with the excesses `e` and a valid labelling `h`. -/
structure Inv (n : Nat) (c : Nat → Nat → Int) (src sink : Nat) (x : Nat → Nat → Int) (h : Nat → Nat) (e : Nat → Int) : Prop where
  skew : ∀ u v, u < n → v < n → x u v = - x v u
  le : ∀ u v, u < n → v < n → x u v ≤ c u v
  exc : ∀ u, u < n → u ≠ src → e u = ∑ v ∈ range n, x v u
  nonneg : ∀ u, u < n → u ≠ src → 0 ≤ e u
  valid : ∀ u v, u < n → v < n → x u v < c u v → h u ≤ h v + 1
  hsrc : h src = n
  hsink : h sink = 0

/-- Nothing is stuck: a set without the source that holds an excess can send something out. -/
theorem leave {n : Nat} {c : Nat → Nat → Int} {src sink : Nat} {x : Nat → Nat → Int} {h : Nat → Nat} {e : Nat → Int} (I : Inv n c src sink x h e)
    (hc0 : ∀ u v, u < n → v < n → 0 ≤ c u v) {R : Finset Nat} (hR : R ⊆ range n) (hs : src ∉ R) {u : Nat} (hu : u ∈ R) (he : 0 < e u) :
    ∃ a ∈ R, ∃ b ∈ range n \ R, x a b < c a b := by
  by_contra hno
  have hno : ∀ a ∈ R, ∀ b ∈ range n \ R, c a b ≤ x a b := fun a ha b hb => by
    by_contra hlt
    exact hno ⟨a, ha, b, hb, by omega⟩
  have h1 : ∑ r ∈ R, e r = ∑ r ∈ R, ∑ v ∈ R, x v r + ∑ r ∈ R, ∑ v ∈ range n \ R, x v r := by
    rw [← sum_add_distrib]
    refine sum_congr rfl (fun r hr => ?_)
    rw [I.exc r (mem_range.mp (hR hr)) (fun hc => hs (hc ▸ hr)), add_comm, sum_sdiff hR]
  have h2 : ∑ r ∈ R, ∑ v ∈ R, x v r = 0 := by
    have h3 : ∑ r ∈ R, ∑ v ∈ R, x v r = - ∑ r ∈ R, ∑ v ∈ R, x v r := by
      conv_lhs => rw [sum_comm]
      rw [← sum_neg_distrib]
      refine sum_congr rfl (fun r hr => ?_)
      rw [← sum_neg_distrib]
      exact sum_congr rfl (fun v hv => I.skew r v (mem_range.mp (hR hr)) (mem_range.mp (hR hv)))
    omega
  have h3 : ∑ r ∈ R, ∑ v ∈ range n \ R, x v r ≤ 0 := by
    refine sum_nonpos (fun r hr => sum_nonpos (fun v hv => ?_))
    have g1 := mem_range.mp (hR hr)
    have g2 := mem_range.mp (mem_sdiff.mp hv).1
    have := hno r hr v hv
    have := I.skew v r g2 g1
    have := hc0 r v g1 g2
    omega
  have h4 : e u ≤ ∑ r ∈ R, e r := single_le_sum (f := e) (fun r hr => I.nonneg r (mem_range.mp (hR hr)) (fun hc => hs (hc ▸ hr))) hu
  omega

/-- With two of the `n` nodes elsewhere, some of `n - 1` heights is free. -/
theorem gap {n : Nat} (h : Nat → Nat) {s u lo : Nat} (hs : s < n) (hu : u < n) (hne : s ≠ u) (h1 : h s ∉ Ico lo (lo + n - 1)) (h2 : h u ∉ Ico lo (lo + n - 1)) :
    ∃ k ∈ Ico lo (lo + n - 1), ∀ v, v < n → h v ≠ k := by
  have hcard : ((((range n).erase s).erase u).image h).card ≤ n - 2 := by
    refine le_trans card_image_le ?_
    rw [card_erase_of_mem (mem_erase.mpr ⟨Ne.symm hne, mem_range.mpr hu⟩), card_erase_of_mem (mem_range.mpr hs), card_range]
    omega
  have h3 : ((((range n).erase s).erase u).image h).card < (Ico lo (lo + n - 1)).card := by
    rw [Nat.card_Ico]; omega
  obtain ⟨k, hk, hk'⟩ := exists_mem_notMem_of_card_lt_card h3
  refine ⟨k, hk, fun v hv hvk => ?_⟩
  subst hvk
  by_cases g1 : v = s
  · subst g1; exact h1 hk
  by_cases g2 : v = u
  · subst g2; exact h2 hk
  exact hk' (mem_image.mpr ⟨v, mem_erase.mpr ⟨g2, mem_erase.mpr ⟨g1, mem_range.mpr hv⟩⟩, rfl⟩)

/-- Above a free height nothing can be sent down. -/
theorem above {n : Nat} {c : Nat → Nat → Int} {src sink : Nat} {x : Nat → Nat → Int} {h : Nat → Nat} {e : Nat → Int} (I : Inv n c src sink x h e)
    {k : Nat} (hk : ∀ v, v < n → h v ≠ k) {a b : Nat} (ha : a ∈ (range n).filter (fun v => k < h v)) (hb : b ∈ range n \ (range n).filter (fun v => k < h v)) : c a b ≤ x a b := by
  by_contra hlt
  have g1 := mem_filter.mp ha
  have g2 := mem_sdiff.mp hb
  have g3 := I.valid a b (mem_range.mp g1.1) (mem_range.mp g2.1) (by omega)
  have g4 : ¬ k < h b := fun hc => g2.2 (mem_filter.mpr ⟨g2.1, hc⟩)
  have := hk b (mem_range.mp g2.1)
  have := g1.2
  omega

/-- A node with an excess is not high. -/
theorem height_lt {n : Nat} {c : Nat → Nat → Int} {src sink : Nat} {x : Nat → Nat → Int} {h : Nat → Nat} {e : Nat → Int} (I : Inv n c src sink x h e)
    (hc0 : ∀ u v, u < n → v < n → 0 ≤ c u v) (hsn : src < n) {u : Nat} (hu : u < n) (hus : u ≠ src) (he : 0 < e u) : h u < 2 * n := by
  by_contra hlt
  obtain ⟨k, hk, hk'⟩ := gap h (lo := n + 1) hsn hu (Ne.symm hus) (by rw [mem_Ico, I.hsrc]; omega) (by rw [mem_Ico]; omega)
  rw [mem_Ico] at hk
  obtain ⟨a, ha, b, hb, hab⟩ := leave I hc0 (R := (range n).filter (fun v => k < h v)) (filter_subset ..)
    (fun hm => by have := (mem_filter.mp hm).2; rw [I.hsrc] at this; omega) (mem_filter.mpr ⟨mem_range.mpr hu, by omega⟩) he
  have := above I hk' ha hb
  omega

/-- Two entries of the net flow after sending `d` from `u` to `v`. -/
def sent (x : Nat → Nat → Int) (u v : Nat) (d : Int) : Nat → Nat → Int := upd2 (upd2 x u v (x u v + d)) v u (x v u - d)

theorem sent_uv {x : Nat → Nat → Int} {u v : Nat} (huv : u ≠ v) (d : Int) : sent x u v d u v = x u v + d := by
  rw [sent, upd2_ne _ _ _ _ (by omega), upd2_self]

theorem sent_vu {x : Nat → Nat → Int} {u v : Nat} (d : Int) : sent x u v d v u = x v u - d := by
  rw [sent, upd2_self]

theorem sent_ne {x : Nat → Nat → Int} {u v : Nat} (d : Int) {a b : Nat} (h1 : ¬ (a = u ∧ b = v)) (h2 : ¬ (a = v ∧ b = u)) : sent x u v d a b = x a b := by
  rw [sent, upd2_ne _ _ _ _ h2, upd2_ne _ _ _ _ h1]

theorem sum_sent {n : Nat} (x : Nat → Nat → Int) {u v : Nat} (hu : u < n) (hv : v < n) (huv : u ≠ v) (d : Int) (b : Nat) :
    ∑ a ∈ range n, sent x u v d a b = ∑ a ∈ range n, x a b + (if b = v then d else 0) - (if b = u then d else 0) := by
  by_cases hbv : b = v
  · subst hbv
    rw [if_pos rfl, if_neg (Ne.symm huv), ← add_sum_erase _ _ (mem_range.mpr hu), ← add_sum_erase _ (fun a => x a b) (mem_range.mpr hu), sent_uv huv,
      sum_congr rfl (fun a ha => sent_ne d (by have := (mem_erase.mp ha).1; omega) (by omega))]
    omega
  by_cases hbu : b = u
  · subst hbu
    rw [if_neg hbv, if_pos rfl, ← add_sum_erase _ _ (mem_range.mpr hv), ← add_sum_erase _ (fun a => x a b) (mem_range.mpr hv), sent_vu,
      sum_congr rfl (fun a ha => sent_ne d (by omega) (by have := (mem_erase.mp ha).1; omega))]
    omega
  · rw [if_neg hbv, if_neg hbu, sum_congr rfl (fun a _ => sent_ne d (by omega) (by omega))]
    omega

/-- The excesses after sending `d` from `u` to `v`. -/
def moved (e : Nat → Int) (u v : Nat) (d : Int) : Nat → Int := fun w => e w + (if w = v then d else 0) - (if w = u then d else 0)

theorem Inv.push {n : Nat} {c : Nat → Nat → Int} {src sink : Nat} {x : Nat → Nat → Int} {h : Nat → Nat} {e : Nat → Int} (I : Inv n c src sink x h e)
    {u v : Nat} (hu : u < n) (hv : v < n) (huv : u ≠ v) {d : Int} (hd : 0 ≤ d) (hde : d ≤ e u) (hdc : d ≤ c u v - x u v) (hh : h v < h u) :
    Inv n c src sink (sent x u v d) h (moved e u v d) := by
  refine ⟨fun a b ha hb => ?_, fun a b ha hb => ?_, fun w hw hws => ?_, fun w hw hws => ?_, fun a b ha hb hab => ?_, I.hsrc, I.hsink⟩
  · have h0 := I.skew u v hu hv
    by_cases h1 : a = u ∧ b = v
    · rw [h1.1, h1.2, sent_uv huv, sent_vu]; omega
    by_cases h2 : a = v ∧ b = u
    · rw [h2.1, h2.2, sent_uv huv, sent_vu]; omega
    · rw [sent_ne d h1 h2, sent_ne d (by omega) (by omega)]; exact I.skew a b ha hb
  · by_cases h1 : a = u ∧ b = v
    · rw [h1.1, h1.2, sent_uv huv]; omega
    by_cases h2 : a = v ∧ b = u
    · rw [h2.1, h2.2, sent_vu]; have := I.le v u hv hu; omega
    · rw [sent_ne d h1 h2]; exact I.le a b ha hb
  · rw [sum_sent x hu hv huv, moved, I.exc w hw hws]
  · rw [moved]
    have h1 := I.nonneg w hw hws
    by_cases h2 : w = u
    · subst h2; rw [if_neg huv, if_pos rfl]; omega
    · rw [if_neg h2]; split <;> omega
  · by_cases h1 : a = u ∧ b = v
    · rw [h1.1, h1.2, sent_uv huv] at hab; rw [h1.1, h1.2]; exact I.valid u v hu hv (by omega)
    by_cases h2 : a = v ∧ b = u
    · rw [h2.1, h2.2]; omega
    · rw [sent_ne d h1 h2] at hab; exact I.valid a b ha hb hab

theorem Adm.of_push {c : Nat → Nat → Int} {x : Nat → Nat → Int} {h : Nat → Nat} 
    {u v : Nat} (huv : u ≠ v) {d : Int} (hd : 0 ≤ d) (hh : h v < h u) {a b : Nat} (hab : Adm c (sent x u v d) h a b) : Adm c x h a b := by
  refine ⟨?_, hab.2⟩
  have h0 := hab.1
  by_cases h1 : a = u ∧ b = v
  · rw [h1.1, h1.2, sent_uv huv] at h0; rw [h1.1, h1.2]; omega
  by_cases h2 : a = v ∧ b = u
  · have := hab.2; rw [h2.1, h2.2] at this; omega
  · rwa [sent_ne d h1 h2] at h0

theorem Inv.relabel {n : Nat} {c : Nat → Nat → Int} {src sink : Nat} {x : Nat → Nat → Int} {h : Nat → Nat} {e : Nat → Int} (I : Inv n c src sink x h e)
    {u k : Nat} (hus : u ≠ src) (hut : u ≠ sink) (hk : h u ≤ k) (hmin : ∀ v, v < n → v ≠ u → x u v < c u v → k ≤ h v + 1) : Inv n c src sink x (Function.update h u k) e := by
  refine ⟨I.skew, I.le, I.exc, I.nonneg, fun a b ha hb hab => ?_, by rw [Function.update_of_ne (Ne.symm hus), I.hsrc], by rw [Function.update_of_ne (Ne.symm hut), I.hsink]⟩
  have h0 := I.valid a b ha hb hab
  by_cases h1 : a = u
  · subst h1
    by_cases h2 : b = a
    · subst h2; omega
    · rw [Function.update_self, Function.update_of_ne h2]; exact hmin b hb h2 hab
  · rw [Function.update_of_ne h1]
    by_cases h2 : b = u
    · subst h2; rw [Function.update_self]; omega
    · rw [Function.update_of_ne h2]; exact h0

/-- Without excesses the preflow is a maximum flow. -/
theorem finish {n : Nat} {c : Nat → Nat → Int} {src sink : Nat} {x : Nat → Nat → Int} {h : Nat → Nat} {e : Nat → Int} (I : Inv n c src sink x h e)
    (hc0 : ∀ u v, u < n → v < n → 0 ≤ c u v) (hsrc : src < n) (hsink : sink < n) (hne : src ≠ sink) (h0 : ∀ v, v < n → v ≠ src → v ≠ sink → e v = 0) :
    IsFlow n c src sink (fun u v => max (x u v) 0) ∧ flowValue n src (fun u v => max (x u v) 0) = ∑ v ∈ range n, x src v ∧
      ∃ S ⊆ range n, src ∈ S ∧ sink ∉ S ∧ ∑ v ∈ range n, x src v = cutCap n c S := by
  have key : ∀ u, u < n → flowValue n u (fun u v => max (x u v) 0) = ∑ v ∈ range n, x u v := fun u hu => by
    rw [flowValue, ← sum_sub_distrib]
    refine sum_congr rfl (fun v hv => ?_)
    have := I.skew u v hu (mem_range.mp hv)
    show max (x u v) 0 - max (x v u) 0 = _
    omega
  have F : IsFlow n c src sink (fun u v => max (x u v) 0) := by
    refine ⟨fun u v _ _ => le_max_right _ _, fun u v hu hv => max_le (I.le u v hu hv) (hc0 u v hu hv), fun u hu h1 h2 => ?_⟩
    have h3 := key u hu
    rw [sum_congr rfl (fun v hv => I.skew u v hu (mem_range.mp hv)), sum_neg_distrib, ← I.exc u hu h1, h0 u hu h1 h2, flowValue] at h3
    omega
  obtain ⟨k, hk, hk'⟩ := gap h (lo := 1) hsrc hsink hne (by rw [mem_Ico, I.hsrc]; omega) (by rw [mem_Ico, I.hsink]; omega)
  rw [mem_Ico] at hk
  have m1 : src ∈ (range n).filter (fun v => k < h v) := mem_filter.mpr ⟨mem_range.mpr hsrc, by rw [I.hsrc]; omega⟩
  have m2 : sink ∉ (range n).filter (fun v => k < h v) := fun hm => by have := (mem_filter.mp hm).2; rw [I.hsink] at this; omega
  refine ⟨F, key src hsrc, _, filter_subset .., m1, m2, ?_⟩
  rw [← key src hsrc, value_cut F (filter_subset ..) m1 m2, cutCap]
  refine sum_congr rfl (fun a ha => sum_congr rfl (fun b hb => ?_))
  have g1 := mem_range.mp (mem_filter.mp ha).1
  have g2 := mem_range.mp (mem_sdiff.mp hb).1
  have g3 := above I hk' ha hb
  have g4 := I.le a b g1 g2
  have g5 := hc0 a b g1 g2
  have g6 := I.skew a b g1 g2
  show max (x a b) 0 - max (x b a) 0 = _
  omega

end Altruct.PushRelabel
