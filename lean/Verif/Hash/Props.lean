/-
C32: the polynomial hash of a range of a sequence depends only on the elements of the range.
-/
import Verif.Hash.Model
import Mathlib.Data.Int.ModEq
import Mathlib.Data.List.Lex
import Mathlib.Tactic.Ring
import Mathlib.Tactic.Linarith
import Mathlib.Tactic.Positivity
import Mathlib.Tactic.NormNum

namespace Altruct.Hash

/-! ### specification -/

/-- `x₀ + x₁ B + x₂ B² + ...` -/
def polyVal (B : Int) : List Int → Int
  | [] => 0
  | x :: xs => x + B * polyVal B xs

/-- The hash of a sequence: the value of that polynomial modulo `M`, in `[0, M)`, for every `k`. -/
def hashOf (ps : List Par) (xs : List Int) : List Int := ps.map (fun p => polyVal p.B xs % p.M)

/-- What the client has to define: moduli of at most half the range of `I`, non-negative bases and
their inverses. -/
structure ParOk (l : Lim) (p : Par) : Prop where
  M_pos : 1 ≤ p.M
  M_le : 2 * p.M ≤ l.L
  B_nonneg : 0 ≤ p.B
  B_lt : p.B < l.L
  BI_nonneg : 0 ≤ p.BI
  BI_lt : p.BI < l.L
  inv : p.B * p.BI ≡ 1 [ZMOD p.M]

/-- `IT` holds products of two values of `I`. -/
structure LimOk (l : Lim) : Prop where
  L_pos : 2 ≤ l.L
  LT_ge : l.L * l.L ≤ l.LT

/-- The elements hashed: non-negative values of type `I`. -/
def ElemsOk (l : Lim) (xs : List Int) : Prop := ∀ x ∈ xs, 0 ≤ x ∧ x < l.L

/-! ### tables -/

/-- The contents of a table: the powers of the base. -/
def pw (M B : Int) (i : Nat) : Int := if i = 0 then 1 else B ^ i % M

def tbl (M B : Int) (n : Nat) : List Int := (List.range n).map (pw M B)

def tabN (ps : List Par) (n : Nat) : Tab := ps.map (fun p => (tbl p.M p.B n, tbl p.M p.BI n))

/-- Every state of the static tables that the program can be in. -/
def TabOk (ps : List Par) (tab : Tab) : Prop := ∃ n, tab = tabN ps n

theorem pw_bounds {M : Int} (hM : 1 ≤ M) (B : Int) (i : Nat) : 0 ≤ pw M B i ∧ pw M B i ≤ M := by
  rw [pw]
  split_ifs
  · omega
  · exact ⟨Int.emod_nonneg _ (by omega), (Int.emod_lt_of_pos _ (by omega)).le⟩

theorem pw_modEq (M B : Int) (i : Nat) : pw M B i ≡ B ^ i [ZMOD M] := by
  rw [pw]
  split_ifs with h
  · subst h; simp
  · exact Int.mod_modEq _ _

theorem chk_eq {lim x : Int} (h0 : 0 ≤ x) (h1 : x < lim) : chk lim x = some x := by
  rw [chk, if_pos ⟨by omega, h1⟩]

theorem mul_eq {l : Lim} {a b m : Int} (hm : 1 ≤ m) (hmL : m ≤ l.L) (ha : 0 ≤ a) (hb : 0 ≤ b)
    (h : a * b < l.LT) : mul l a b m = some (a * b % m) := by
  have h0 : 0 ≤ a * b := mul_nonneg ha hb
  have h2 : 0 ≤ a * b % m := Int.emod_nonneg _ (by omega)
  have h3 : a * b % m < m := Int.emod_lt_of_pos _ (by omega)
  rw [mul, chk_eq h0 h]
  simp only [Option.bind_eq_bind, Option.bind_some]
  rw [if_neg (by omega), Int.tmod_eq_emod_of_nonneg h0, chk_eq h2 (by omega)]

theorem mulAdd_eq {l : Lim} {s a b m : Int} (hm : 1 ≤ m) (hmL : m ≤ l.L) (hs : 0 ≤ s) (ha : 0 ≤ a)
    (hb : 0 ≤ b) (h : s + a * b < l.LT) : mulAdd l s a b m = some ((s + a * b) % m) := by
  have h0 : 0 ≤ a * b := mul_nonneg ha hb
  have h2 : 0 ≤ (s + a * b) % m := Int.emod_nonneg _ (by omega)
  have h3 : (s + a * b) % m < m := Int.emod_lt_of_pos _ (by omega)
  rw [mulAdd, chk_eq h0 (by omega)]
  simp only [Option.bind_eq_bind, Option.bind_some]
  rw [chk_eq (by omega) h]
  simp only [Option.bind_some]
  rw [if_neg (by omega), Int.tmod_eq_emod_of_nonneg (by omega), chk_eq h2 (by omega)]

theorem prod_lt {l : Lim} (hl : LimOk l) {a b : Int} (ha : 0 ≤ a) (hb : 0 ≤ b) (ha' : a < l.L)
    (hb' : b < l.L) : a * b < l.LT := by
  have := hl.LT_ge
  have := hb
  nlinarith

theorem sumprod_lt {l : Lim} (hl : LimOk l) {s a b : Int} (ha : 0 ≤ a) (hb : 0 ≤ b) (hs : s < l.L)
    (ha' : a < l.L) (hb' : b < l.L) : s + a * b < l.LT := by
  have := hl.LT_ge
  have := hb
  nlinarith

theorem ensureLoop_spec {l : Lim} (hl : LimOk l) {M B : Int} (hM : 1 ≤ M) (hML : 2 * M ≤ l.L) (hB : 0 ≤ B)
    (hBL : B < l.L) (sz : Nat) : ∀ (k i : Nat) (w : List Int), 1 ≤ i → i + k = sz → w.length = sz →
    (∀ j, j < i → w[j]? = some (pw M B j)) → ensureLoop l B M k i w = some (tbl M B sz) := by
  intro k
  induction k with
  | zero =>
    intro i w _ hi hlen hw
    rw [ensureLoop]
    have : Rep w sz (pw M B) := ⟨hlen, fun j hj => hw j (by omega)⟩
    rw [this.eq_map, tbl]
  | succ k ih =>
    intro i w h1 hi hlen hw
    obtain ⟨p0, p1⟩ := pw_bounds hM B (i - 1)
    rw [ensureLoop, rd, hw (i - 1) (by omega)]
    simp only [Option.bind_eq_bind, Option.bind_some]
    have hpL : pw M B (i - 1) < l.L := by omega
    rw [mul_eq hM (by omega) p0 hB (prod_lt hl p0 hB hpL hBL)]
    simp only [Option.bind_some]
    rw [wr, if_pos (by omega)]
    simp only [Option.bind_some]
    have hv : pw M B (i - 1) * B % M = pw M B i := by
      have h2 : pw M B (i - 1) * B ≡ B ^ i [ZMOD M] := by
        calc pw M B (i - 1) * B ≡ B ^ (i - 1) * B [ZMOD M] := (pw_modEq M B (i - 1)).mul_right _
          _ = B ^ i := by rw [← pow_succ, Nat.sub_add_cancel h1]
      have h3 : pw M B i = B ^ i % M := by rw [pw, if_neg (by omega)]
      rw [h3]
      exact h2
    rw [hv]
    refine ih (i + 1) _ (by omega) (by omega) (by simp [hlen]) ?_
    intro j hj
    by_cases hji : j = i
    · subst hji
      rw [List.getElem?_set_self (by omega)]
    · rw [List.getElem?_set_ne (Ne.symm hji)]
      exact hw j (by omega)

theorem tbl_length (M B : Int) (n : Nat) : (tbl M B n).length = n := by simp [tbl]

theorem tbl_get (M B : Int) {n i : Nat} (h : i < n) : (tbl M B n)[i]? = some (pw M B i) :=
  (Rep.of_map n (pw M B)).get i h

theorem ensure1_spec {l : Lim} (hl : LimOk l) {M B : Int} (hM : 1 ≤ M) (hML : 2 * M ≤ l.L) (hB : 0 ≤ B)
    (hBL : B < l.L) {n sz : Nat} (h : n < sz) : ensure1 l (tbl M B n) sz B M = some (tbl M B sz) := by
  rw [ensure1]
  simp only [tbl_length]
  rw [List.take_of_length_le (by rw [tbl_length]; omega)]
  have hlen : (tbl M B n ++ List.replicate (sz - n) 0).length = sz := by simp [tbl_length]; omega
  by_cases h0 : n = 0
  · subst h0
    simp only [if_true]
    rw [wr, if_pos (by rw [hlen]; omega)]
    simp only [Option.bind_eq_bind, Option.bind_some]
    refine ensureLoop_spec hl hM hML hB hBL sz _ _ _ (by omega) (by omega) (by rw [List.length_set, hlen]) ?_
    intro j hj
    have hj0 : j = 0 := by omega
    subst hj0
    rw [List.getElem?_set_self (by rw [hlen]; omega)]
    simp [pw]
  · simp only [if_neg h0, Option.bind_eq_bind, Option.bind_some]
    refine ensureLoop_spec hl hM hML hB hBL sz _ _ _ (by omega) (by omega) hlen ?_
    intro j hj
    rw [List.getElem?_append_left (by rw [tbl_length]; exact hj)]
    exact tbl_get M B hj

theorem ensureAll_spec {l : Lim} (hl : LimOk l) {ps : List Par} (hp : ∀ p ∈ ps, ParOk l p) {n sz : Nat}
    (h : n < sz) : ensureAll l sz ps (tabN ps n) = some (tabN ps sz) := by
  induction ps with
  | nil => rfl
  | cons p ps ih =>
    have h1 := hp p (by simp)
    have := ih (fun q hq => hp q (by simp [hq]))
    rw [tabN] at this
    simp only [tabN, List.map_cons, ensureAll]
    rw [ensure1_spec hl h1.M_pos h1.M_le h1.B_nonneg h1.B_lt h, ensure1_spec hl h1.M_pos h1.M_le h1.BI_nonneg h1.BI_lt h, this]
    rfl

/-- **C32**: `ensure` keeps the tables in order and makes them long enough. -/
theorem ensure_spec {l : Lim} (hl : LimOk l) {ps : List Par} (hp : ∀ p ∈ ps, ParOk l p) (hne : ps ≠ [])
    {tab : Tab} (ht : TabOk ps tab) (size : Nat) :
    ∃ n, size ≤ n ∧ ensure l ps tab size = some (tabN ps n) := by
  obtain ⟨n, rfl⟩ := ht
  have hhead : (tabN ps n).head?.map (fun t => t.1.length) = some n := by
    obtain ⟨p, ps, rfl⟩ := List.exists_cons_of_ne_nil hne
    simp [tabN, tbl_length]
  rw [ensure, hhead]
  simp only [Option.bind_eq_bind, Option.bind_some]
  by_cases h : size ≤ n
  · rw [if_pos h]; exact ⟨n, h, rfl⟩
  · rw [if_neg h]
    exact ⟨_, le_max_left _ _, ensureAll_spec hl hp (lt_of_lt_of_le (by omega) (le_max_left _ _))⟩

/-! ### hash arithmetic -/

theorem polyVal_append (B : Int) (xs : List Int) (x : Int) :
    polyVal B (xs ++ [x]) = polyVal B xs + x * B ^ xs.length := by
  induction xs with
  | nil => simp [polyVal]
  | cons y ys ih => simp [polyVal, ih, pow_succ]; ring

theorem polyVal_append' (B : Int) (xs ys : List Int) :
    polyVal B (xs ++ ys) = polyVal B xs + B ^ xs.length * polyVal B ys := by
  induction xs with
  | nil => simp [polyVal]
  | cons y xs ih => simp [polyVal, ih, pow_succ]; ring

theorem emod_bounds {M : Int} (hM : 1 ≤ M) (a : Int) : 0 ≤ a % M ∧ a % M < M :=
  ⟨Int.emod_nonneg _ (by omega), Int.emod_lt_of_pos _ (by omega)⟩

theorem addLoop_spec {l : Lim} (hl : LimOk l) (f g : Par → Int) (pos n : Nat) (hpos : pos < n) :
    ∀ (ps : List Par), (∀ p ∈ ps, ParOk l p) → (∀ p ∈ ps, 0 ≤ f p ∧ f p < p.M ∧ 0 ≤ g p ∧ g p < l.L) →
    addLoop l pos ps (tabN ps n) (ps.map f) (ps.map g) =
      some (ps.map (fun p => (f p + g p * p.B ^ pos) % p.M)) := by
  intro ps
  induction ps with
  | nil => intro _ _; rfl
  | cons p ps ih =>
    intro hp hfg
    have h1 := hp p (by simp)
    obtain ⟨f0, f1, g0, g1⟩ := hfg p (by simp)
    have hr := ih (fun q hq => hp q (by simp [hq])) (fun q hq => hfg q (by simp [hq]))
    rw [tabN] at hr
    simp only [tabN, List.map_cons, addLoop]
    obtain ⟨w0, w1⟩ := pw_bounds h1.M_pos p.B pos
    have hMp := h1.M_pos
    have hML := h1.M_le
    rw [rd, tbl_get _ _ hpos]
    simp only [Option.bind_eq_bind, Option.bind_some]
    rw [mulAdd_eq h1.M_pos (by omega) f0 g0 w0 (sumprod_lt hl g0 w0 (by omega) g1 (by omega)), hr]
    simp only [Option.bind_some]
    have : (f p + g p * pw p.M p.B pos) % p.M = (f p + g p * p.B ^ pos) % p.M :=
      ((pw_modEq p.M p.B pos).mul_left (g p)).add_left (f p)
    rw [this]

theorem subLoop_spec {l : Lim} (hl : LimOk l) (f g : Par → Int) (pos n : Nat) (hpos : pos < n) :
    ∀ (ps : List Par), (∀ p ∈ ps, ParOk l p) → (∀ p ∈ ps, 0 ≤ f p ∧ f p < p.M ∧ 0 ≤ g p ∧ g p < p.M) →
    subLoop l pos ps (tabN ps n) (ps.map f) (ps.map g) =
      some (ps.map (fun p => ((f p - g p) * p.BI ^ pos) % p.M)) := by
  intro ps
  induction ps with
  | nil => intro _ _; rfl
  | cons p ps ih =>
    intro hp hfg
    have h1 := hp p (by simp)
    obtain ⟨f0, f1, g0, g1⟩ := hfg p (by simp)
    have hr := ih (fun q hq => hp q (by simp [hq])) (fun q hq => hfg q (by simp [hq]))
    rw [tabN] at hr
    simp only [tabN, List.map_cons, subLoop]
    obtain ⟨w0, w1⟩ := pw_bounds h1.M_pos p.BI pos
    have hMp := h1.M_pos
    have hML := h1.M_le
    rw [rd, tbl_get _ _ hpos, chk_eq (by omega) (by omega)]
    simp only [Option.bind_eq_bind, Option.bind_some]
    rw [chk_eq (by omega) (by omega)]
    simp only [Option.bind_some]
    rw [mul_eq h1.M_pos (by omega) (by omega) w0 (prod_lt hl (by omega) w0 (by omega) (by omega)), hr]
    simp only [Option.bind_some]
    have : (f p + p.M - g p) * pw p.M p.BI pos % p.M = ((f p - g p) * p.BI ^ pos) % p.M := by
      apply Int.ModEq.mul _ (pw_modEq p.M p.BI pos)
      rw [Int.modEq_iff_dvd]
      exact ⟨-1, by ring⟩
    rw [this]

theorem hashOf_bounds {l : Lim} {ps : List Par} (hp : ∀ p ∈ ps, ParOk l p) (xs : List Int) :
    ∀ p ∈ ps, 0 ≤ polyVal p.B xs % p.M ∧ polyVal p.B xs % p.M < p.M :=
  fun p hq => emod_bounds (hp p hq).M_pos _

/-- **C32**: adding an element at position `pos = length` extends the hashed sequence. -/
theorem C32_add {l : Lim} (hl : LimOk l) {ps : List Par} (hp : ∀ p ∈ ps, ParOk l p) (hne : ps ≠ [])
    {tab : Tab} (ht : TabOk ps tab) (xs : List Int) (x : Int) (hx : 0 ≤ x ∧ x < l.L) :
    ∃ tab', TabOk ps tab' ∧ add l ps tab (hashOf ps xs) x xs.length = some (tab', hashOf ps (xs ++ [x])) := by
  obtain ⟨n, hn, he⟩ := ensure_spec hl hp hne ht (xs.length + 1)
  refine ⟨tabN ps n, ⟨n, rfl⟩, ?_⟩
  rw [add, addHash, he]
  simp only [Option.bind_eq_bind, Option.bind_some]
  rw [hashOf, addLoop_spec hl _ _ _ n (by omega) ps hp (fun p hq => ⟨(hashOf_bounds hp xs p hq).1, (hashOf_bounds hp xs p hq).2, hx.1, hx.2⟩)]
  simp only [Option.bind_some, hashOf]
  congr 3
  funext p
  rw [polyVal_append, Int.emod_add_emod]

/-- **C32**: `a.add(b, |xs|)` for hashes of `xs` and `ys` is the hash of the concatenation. -/
theorem C32_add_hash {l : Lim} (hl : LimOk l) {ps : List Par} (hp : ∀ p ∈ ps, ParOk l p) (hne : ps ≠ [])
    {tab : Tab} (ht : TabOk ps tab) (xs ys : List Int) :
    ∃ tab', TabOk ps tab' ∧
      addHash l ps tab (hashOf ps xs) (hashOf ps ys) xs.length = some (tab', hashOf ps (xs ++ ys)) := by
  obtain ⟨n, hn, he⟩ := ensure_spec hl hp hne ht (xs.length + 1)
  refine ⟨tabN ps n, ⟨n, rfl⟩, ?_⟩
  rw [addHash, he]
  simp only [Option.bind_eq_bind, Option.bind_some]
  rw [hashOf, hashOf, addLoop_spec hl _ _ _ n (by omega) ps hp (fun p hq => by
    have h1 := hashOf_bounds hp xs p hq
    have h2 := hashOf_bounds hp ys p hq
    have h3 := (hp p hq).M_le
    have h4 := (hp p hq).M_pos
    exact ⟨h1.1, h1.2, h2.1, by omega⟩)]
  simp only [Option.bind_some, hashOf]
  congr 3
  funext p
  rw [polyVal_append', Int.emod_add_emod]
  exact ((Int.mod_modEq (polyVal p.B ys) p.M).mul_right _).add_left _ |>.trans (by rw [mul_comm])

theorem inv_pow {p : Par} (h : p.B * p.BI ≡ 1 [ZMOD p.M]) (n : Nat) : p.B ^ n * p.BI ^ n ≡ 1 [ZMOD p.M] := by
  have := h.pow n
  rwa [mul_pow, one_pow] at this

/-- **C32**: `a.sub_shr(b, |xs|)` for hashes of `xs ++ ys` and `xs` is the hash of `ys`. -/
theorem C32_sub_shr {l : Lim} (hl : LimOk l) {ps : List Par} (hp : ∀ p ∈ ps, ParOk l p) (hne : ps ≠ [])
    {tab : Tab} (ht : TabOk ps tab) (xs ys : List Int) :
    ∃ tab', TabOk ps tab' ∧
      subShr l ps tab (hashOf ps (xs ++ ys)) (hashOf ps xs) xs.length = some (tab', hashOf ps ys) := by
  obtain ⟨n, hn, he⟩ := ensure_spec hl hp hne ht (xs.length + 1)
  refine ⟨tabN ps n, ⟨n, rfl⟩, ?_⟩
  rw [subShr, he]
  simp only [Option.bind_eq_bind, Option.bind_some]
  rw [hashOf, hashOf, subLoop_spec hl _ _ _ n (by omega) ps hp (fun p hq => by
    have h1 := hashOf_bounds hp xs p hq
    have h2 := hashOf_bounds hp (xs ++ ys) p hq
    exact ⟨h2.1, h2.2, h1.1, h1.2⟩)]
  simp only [Option.bind_some, hashOf]
  congr 2
  apply List.map_congr_left
  intro p hq
  have e1 : polyVal p.B (xs ++ ys) % p.M - polyVal p.B xs % p.M ≡ p.B ^ xs.length * polyVal p.B ys [ZMOD p.M] := by
    calc polyVal p.B (xs ++ ys) % p.M - polyVal p.B xs % p.M
        ≡ polyVal p.B (xs ++ ys) - polyVal p.B xs [ZMOD p.M] := (Int.mod_modEq _ _).sub (Int.mod_modEq _ _)
      _ = p.B ^ xs.length * polyVal p.B ys := by rw [polyVal_append']; ring
  have e2 : (polyVal p.B (xs ++ ys) % p.M - polyVal p.B xs % p.M) * p.BI ^ xs.length ≡ polyVal p.B ys [ZMOD p.M] := by
    calc (polyVal p.B (xs ++ ys) % p.M - polyVal p.B xs % p.M) * p.BI ^ xs.length
        ≡ (p.B ^ xs.length * polyVal p.B ys) * p.BI ^ xs.length [ZMOD p.M] := e1.mul_right _
      _ = (p.B ^ xs.length * p.BI ^ xs.length) * polyVal p.B ys := by ring
      _ ≡ 1 * polyVal p.B ys [ZMOD p.M] := (inv_pow (hp p hq).inv _).mul_right _
      _ = polyVal p.B ys := one_mul _
  exact e2

/-! ### shifts, sum, difference, product and comparison -/

theorem shLoop_spec {l : Lim} (hl : LimOk l) (sel : List Int × List Int → List Int) (b : Par → Int)
    (hsel : ∀ (p : Par) (n : Nat), sel (tbl p.M p.B n, tbl p.M p.BI n) = tbl p.M (b p) n) (f : Par → Int)
    (cnt n : Nat) (hc : cnt < n) :
    ∀ (ps : List Par), (∀ p ∈ ps, ParOk l p) → (∀ p ∈ ps, 0 ≤ f p ∧ f p < p.M) →
    shLoop l sel cnt ps (tabN ps n) (ps.map f) = some (ps.map (fun p => (f p * b p ^ cnt) % p.M)) := by
  intro ps
  induction ps with
  | nil => intro _ _; rfl
  | cons p ps ih =>
    intro hp hf
    have h1 := hp p (by simp)
    obtain ⟨f0, f1⟩ := hf p (by simp)
    have hr := ih (fun q hq => hp q (by simp [hq])) (fun q hq => hf q (by simp [hq]))
    rw [tabN] at hr
    simp only [tabN, List.map_cons, shLoop]
    obtain ⟨w0, w1⟩ := pw_bounds h1.M_pos (b p) cnt
    have hMp := h1.M_pos
    have hML := h1.M_le
    rw [rd, hsel, tbl_get _ _ hc]
    simp only [Option.bind_eq_bind, Option.bind_some]
    rw [mul_eq h1.M_pos (by omega) f0 w0 (prod_lt hl f0 w0 (by omega) (by omega)), hr]
    simp only [Option.bind_some]
    have : f p * pw p.M (b p) cnt % p.M = (f p * b p ^ cnt) % p.M := (pw_modEq p.M (b p) cnt).mul_left (f p)
    rw [this]

/-- **C32**: `<<= cnt` multiplies by `B^cnt`, `>>= cnt` by the inverse of that, so `>>= cnt` undoes
`<<= cnt`. -/
theorem C32_shifts {l : Lim} (hl : LimOk l) {ps : List Par} (hp : ∀ p ∈ ps, ParOk l p) (hne : ps ≠ [])
    {tab : Tab} (ht : TabOk ps tab) (f : Par → Int) (hf : ∀ p ∈ ps, 0 ≤ f p ∧ f p < p.M) (cnt : Nat) :
    ∃ tab' tab'', TabOk ps tab' ∧ TabOk ps tab'' ∧
      shl l ps tab (ps.map f) cnt = some (tab', ps.map (fun p => (f p * p.B ^ cnt) % p.M)) ∧
      shr l ps tab' (ps.map (fun p => (f p * p.B ^ cnt) % p.M)) cnt = some (tab'', ps.map f) := by
  obtain ⟨n, hn, he⟩ := ensure_spec hl hp hne ht (cnt + 1)
  obtain ⟨m, hm, he'⟩ := ensure_spec hl hp hne ⟨n, rfl⟩ (cnt + 1)
  refine ⟨tabN ps n, tabN ps m, ⟨n, rfl⟩, ⟨m, rfl⟩, ?_, ?_⟩
  · rw [shl, he]
    simp only [Option.bind_eq_bind, Option.bind_some]
    rw [shLoop_spec hl Prod.fst Par.B (fun _ _ => rfl) f cnt n (by omega) ps hp hf]
    rfl
  · rw [shr, he']
    simp only [Option.bind_eq_bind, Option.bind_some]
    rw [shLoop_spec hl Prod.snd Par.BI (fun _ _ => rfl) _ cnt m (by omega) ps hp
      (fun p hq => emod_bounds (hp p hq).M_pos _)]
    simp only [Option.bind_some]
    congr 2
    apply List.map_congr_left
    intro p hq
    have e : f p * p.B ^ cnt % p.M * p.BI ^ cnt ≡ f p [ZMOD p.M] := by
      calc f p * p.B ^ cnt % p.M * p.BI ^ cnt ≡ f p * p.B ^ cnt * p.BI ^ cnt [ZMOD p.M] := (Int.mod_modEq _ _).mul_right _
        _ = f p * (p.B ^ cnt * p.BI ^ cnt) := by ring
        _ ≡ f p * 1 [ZMOD p.M] := (inv_pow (hp p hq).inv _).mul_left _
        _ = f p := mul_one _
    have h1 := hf p hq
    have e' : f p * p.B ^ cnt % p.M * p.BI ^ cnt % p.M = f p % p.M := e
    rw [e', Int.emod_eq_of_lt h1.1 h1.2]

/-- **C32**: `+=`, `-=` and `*=` are arithmetic modulo `M`. -/
theorem C32_arith {l : Lim} (hl : LimOk l) (f g : Par → Int) : ∀ (ps : List Par), (∀ p ∈ ps, ParOk l p) →
    (∀ p ∈ ps, 0 ≤ f p ∧ f p < p.M ∧ 0 ≤ g p ∧ g p < p.M) →
    plus l ps (ps.map f) (ps.map g) = some (ps.map (fun p => (f p + g p) % p.M)) ∧
    minus l ps (ps.map f) (ps.map g) = some (ps.map (fun p => (f p - g p) % p.M)) ∧
    times l ps (ps.map f) (ps.map g) = some (ps.map (fun p => (f p * g p) % p.M)) := by
  intro ps
  induction ps with
  | nil => intro _ _; exact ⟨rfl, rfl, rfl⟩
  | cons p ps ih =>
    intro hp hfg
    have h1 := hp p (by simp)
    obtain ⟨f0, f1, g0, g1⟩ := hfg p (by simp)
    obtain ⟨r1, r2, r3⟩ := ih (fun q hq => hp q (by simp [hq])) (fun q hq => hfg q (by simp [hq]))
    have hMp := h1.M_pos
    have hML := h1.M_le
    have hM0 : p.M ≠ 0 := by omega
    refine ⟨?_, ?_, ?_⟩
    · simp only [List.map_cons, plus]
      rw [chk_eq (by omega) (by omega), r1]
      simp only [Option.bind_eq_bind, Option.bind_some, if_neg hM0]
      rw [Int.tmod_eq_emod_of_nonneg (by omega)]
    · simp only [List.map_cons, minus]
      rw [chk_eq (by omega) (by omega), r2]
      simp only [Option.bind_eq_bind, Option.bind_some, if_neg hM0]
      rw [chk_eq (by omega) (by omega)]
      simp only [Option.bind_some]
      rw [Int.tmod_eq_emod_of_nonneg (by omega)]
      have : f p + p.M - g p = f p - g p + p.M := by ring
      rw [this, Int.add_emod_right]
    · simp only [List.map_cons, times]
      rw [mul_eq hMp (by omega) f0 g0 (prod_lt hl f0 g0 (by omega) (by omega)), r3]
      rfl

/-- **C32**: `==` is equality and `<` a strict lexicographic order. -/
theorem C32_compare (h r : List Int) (hlen : h.length = r.length) :
    (beq h r = true ↔ h = r) ∧ (lt h r = true ↔ h < r) := by
  induction h generalizing r with
  | nil =>
    cases r with
    | nil => simp [beq, lt]
    | cons y ys => simp at hlen
  | cons x xs ih =>
    cases r with
    | nil => simp at hlen
    | cons y ys =>
      obtain ⟨i1, i2⟩ := ih ys (by simpa using hlen)
      rw [beq, lt, List.cons_lt_cons_iff]
      by_cases hxy : x = y
      · subst hxy; simp [i1, i2]
      · simp [hxy]

/-! ### cumulative hash -/

/-- The invariant: `vh[i]` is the hash of the first `i + 1` elements. -/
def VhOk (ps : List Par) (vh : List (List Int)) (xs : List Int) : Prop :=
  vh = (List.range xs.length).map (fun i => hashOf ps (xs.take (i + 1)))

theorem VhOk.length {ps : List Par} {vh : List (List Int)} {xs : List Int} (h : VhOk ps vh xs) :
    vh.length = xs.length := by rw [h]; simp

theorem VhOk.rd {ps : List Par} {vh : List (List Int)} {xs : List Int} (h : VhOk ps vh xs) {i : Nat}
    (hi : i < xs.length) : rd vh i = some (hashOf ps (xs.take (i + 1))) := by
  rw [h]
  exact (Rep.of_map xs.length (fun i => hashOf ps (xs.take (i + 1)))).rd hi

theorem VhOk.snoc {ps : List Par} {vh : List (List Int)} {xs : List Int} (h : VhOk ps vh xs) (x : Int) :
    VhOk ps (vh ++ [hashOf ps (xs ++ [x])]) (xs ++ [x]) := by
  rw [VhOk] at h ⊢
  rw [List.length_append, List.length_singleton, List.range_succ, List.map_append, h]
  congr 1
  · apply List.map_congr_left
    intro i hi
    rw [List.mem_range] at hi
    rw [List.take_append_of_le_length (by omega)]
  · rw [List.map_singleton, List.take_of_length_le (by simp)]

theorem hashOf_nil (ps : List Par) : hashOf ps [] = zero ps := by
  simp [hashOf, zero, polyVal]

theorem VhOk.last {ps : List Par} {vh : List (List Int)} {xs : List Int} (h : VhOk ps vh xs) :
    (vh.getLast?).getD (zero ps) = hashOf ps xs := by
  rcases List.eq_nil_or_concat xs with rfl | ⟨ys, y, rfl⟩
  · rw [VhOk] at h
    simp at h
    simp [h, hashOf_nil]
  · rw [VhOk] at h
    rw [List.concat_eq_append] at h ⊢
    rw [List.length_append, List.length_singleton, List.range_succ, List.map_append] at h
    rw [h, List.map_singleton, List.take_of_length_le (by simp)]
    simp

theorem assignLoop_spec {l : Lim} (hl : LimOk l) {ps : List Par} (hp : ∀ p ∈ ps, ParOk l p) (hne : ps ≠ []) :
    ∀ (ys xs : List Int) (tab : Tab) (vh : List (List Int)), ElemsOk l ys → TabOk ps tab → VhOk ps vh xs →
    ∃ tab' vh', TabOk ps tab' ∧ VhOk ps vh' (xs ++ ys) ∧
      assignLoop l ps ys (hashOf ps xs) xs.length tab vh = some (tab', vh') := by
  intro ys
  induction ys with
  | nil => intro xs tab vh _ ht hv; exact ⟨tab, vh, ht, by simpa using hv, rfl⟩
  | cons y ys ih =>
    intro xs tab vh hy ht hv
    obtain ⟨tab1, ht1, e1⟩ := C32_add hl hp hne ht xs y (hy y (by simp))
    obtain ⟨tab2, vh2, ht2, hv2, e2⟩ := ih (xs ++ [y]) tab1 _ (fun z hz => hy z (by simp [hz])) ht1 (hv.snoc y)
    refine ⟨tab2, vh2, ht2, by simpa using hv2, ?_⟩
    rw [assignLoop, e1]
    simp only [Option.bind_eq_bind, Option.bind_some]
    rw [List.length_append, List.length_singleton] at e2
    exact e2

/-- The history of one cumulative hash. -/
inductive Op where
  | assign (xs : List Int)
  | push (x : Int)
  | pop
  | get (b e : Nat)

/-- The object (`vh`) and the static tables. -/
abbrev State := Tab × List (List Int)

def step (l : Lim) (ps : List Par) (s : State) : Op → Option State
  | .assign xs => assign l ps s.1 s.2 xs
  | .push x => pushBack l ps s.1 s.2 x
  | .pop => do let vh ← popBack s.2; some (s.1, vh)
  | .get b e => do let r ← get l ps s.1 s.2 b e; some (r.1, s.2)

def run (l : Lim) (ps : List Par) (s : State) : List Op → Option State
  | [] => some s
  | o :: os => do let s ← step l ps s o; run l ps s os

/-- The sequence that is hashed. -/
def specStep (xs : List Int) : Op → List Int
  | .assign ys => xs ++ ys
  | .push x => xs ++ [x]
  | .pop => xs.dropLast
  | .get _ _ => xs

/-- The calls that are allowed: `assign` only on an empty object, as it does not clear. -/
def Valid (l : Lim) (xs : List Int) : Op → Prop
  | .assign ys => xs = [] ∧ ElemsOk l ys
  | .push x => 0 ≤ x ∧ x < l.L
  | .pop => xs ≠ []
  | .get b e => b ≤ e ∧ e ≤ xs.length

def ValidRun (l : Lim) (xs : List Int) : List Op → Prop
  | [] => True
  | o :: os => Valid l xs o ∧ ValidRun l (specStep xs o) os

theorem get_spec {l : Lim} (hl : LimOk l) {ps : List Par} (hp : ∀ p ∈ ps, ParOk l p) (hne : ps ≠ [])
    {tab : Tab} (ht : TabOk ps tab) {vh : List (List Int)} {xs : List Int} (hv : VhOk ps vh xs) {b e : Nat}
    (hbe : b ≤ e) (he : e ≤ xs.length) :
    ∃ tab', TabOk ps tab' ∧ get l ps tab vh b e = some (tab', hashOf ps ((xs.take e).drop b)) := by
  have hr : (if 0 < e then rd vh (e - 1) else some (zero ps)) = some (hashOf ps (xs.take e)) := by
    split_ifs with h
    · rw [hv.rd (by omega)]
      congr 3; omega
    · have : e = 0 := by omega
      subst this
      rw [List.take_zero, hashOf_nil]
  have hg : get l ps tab vh b e = (if 0 < e then rd vh (e - 1) else some (zero ps)).bind (fun r =>
      if 0 < b then (rd vh (b - 1)).bind (fun v => subShr l ps tab r v b) else some (tab, r)) := by
    rw [get]; split_ifs <;> rfl
  rw [hg, hr]
  simp only [Option.bind_some]
  by_cases hb : 0 < b
  · rw [if_pos hb, hv.rd (by omega)]
    simp only [Option.bind_some]
    have e1 : b - 1 + 1 = b := by omega
    rw [e1]
    obtain ⟨tab', ht', e2⟩ := C32_sub_shr hl hp hne ht (xs.take b) ((xs.take e).drop b)
    have e3 : xs.take b ++ (xs.take e).drop b = xs.take e := by
      have := List.take_append_drop b (xs.take e)
      rwa [List.take_take, min_eq_left hbe] at this
    have e4 : (xs.take b).length = b := by rw [List.length_take]; omega
    rw [e3, e4] at e2
    exact ⟨tab', ht', e2⟩
  · have : b = 0 := by omega
    subst this
    exact ⟨tab, ht, by simp⟩

theorem step_spec {l : Lim} (hl : LimOk l) {ps : List Par} (hp : ∀ p ∈ ps, ParOk l p) (hne : ps ≠ [])
    {s : State} {xs : List Int} (ht : TabOk ps s.1) (hv : VhOk ps s.2 xs) (o : Op) (ho : Valid l xs o) :
    ∃ s', step l ps s o = some s' ∧ TabOk ps s'.1 ∧ VhOk ps s'.2 (specStep xs o) := by
  cases o with
  | assign ys =>
    obtain ⟨rfl, hy⟩ := ho
    obtain ⟨n, hn, e⟩ := ensure_spec hl hp hne ht ys.length
    obtain ⟨tab', vh', ht', hv', e'⟩ := assignLoop_spec hl hp hne ys [] (tabN ps n) s.2 hy ⟨n, rfl⟩ hv
    refine ⟨(tab', vh'), ?_, ht', by simpa [specStep] using hv'⟩
    rw [step, assign, e]
    simp only [Option.bind_eq_bind, Option.bind_some]
    rw [hashOf_nil] at e'
    exact e'
  | push x =>
    obtain ⟨tab', ht', e⟩ := C32_add hl hp hne ht xs x ho
    refine ⟨(tab', s.2 ++ [hashOf ps (xs ++ [x])]), ?_, ht', hv.snoc x⟩
    rw [step, pushBack, hv.last, hv.length, e]
    rfl
  | pop =>
    have hne' : s.2 ≠ [] := by
      intro h
      have := hv.length
      rw [h] at this
      exact ho (List.length_eq_zero_iff.mp this.symm)
    refine ⟨(s.1, s.2.dropLast), ?_, ht, ?_⟩
    · rw [step, popBack, if_neg hne']; rfl
    · show VhOk ps s.2.dropLast xs.dropLast
      rcases List.eq_nil_or_concat xs with rfl | ⟨ys, y, rfl⟩
      · exact absurd rfl ho
      · rw [VhOk] at hv ⊢
        rw [List.concat_eq_append] at hv ⊢
        rw [hv, List.dropLast_concat, List.length_append, List.length_singleton, List.range_succ, List.map_append,
          List.map_singleton, List.dropLast_concat]
        apply List.map_congr_left
        intro i hi
        rw [List.mem_range] at hi
        rw [List.take_append_of_le_length (by omega)]
  | get b e =>
    obtain ⟨tab', ht', e1⟩ := get_spec hl hp hne ht hv ho.1 ho.2
    refine ⟨(tab', s.2), ?_, ht', hv⟩
    rw [step, e1]; rfl

theorem run_spec {l : Lim} (hl : LimOk l) {ps : List Par} (hp : ∀ p ∈ ps, ParOk l p) (hne : ps ≠ []) :
    ∀ (os : List Op) (s : State) (xs : List Int), TabOk ps s.1 → VhOk ps s.2 xs → ValidRun l xs os →
    ∃ s', run l ps s os = some s' ∧ TabOk ps s'.1 ∧ VhOk ps s'.2 (os.foldl specStep xs) := by
  intro os
  induction os with
  | nil => intro s xs ht hv _; exact ⟨s, rfl, ht, hv⟩
  | cons o os ih =>
    intro s xs ht hv ho
    obtain ⟨s1, e1, ht1, hv1⟩ := step_spec hl hp hne ht hv o ho.1
    obtain ⟨s2, e2, ht2, hv2⟩ := ih s1 _ ht1 hv1 ho.2
    exact ⟨s2, by rw [run, e1]; exact e2, ht2, hv2⟩

/-- **C32**: after any history of a cumulative hash that was empty (whatever other hashes of the
type have done to the shared tables, `TabOk`), `get(b, e)` is the polynomial hash of the elements
in `[b, e)` and of nothing else, and `size()` is the length. -/
theorem C32_get {l : Lim} (hl : LimOk l) {ps : List Par} (hp : ∀ p ∈ ps, ParOk l p) (hne : ps ≠ [])
    {tab : Tab} (ht : TabOk ps tab) (os : List Op) (hos : ValidRun l [] os) :
    ∃ s, run l ps (tab, []) os = some s ∧ s.2.length = (os.foldl specStep []).length ∧
      ∀ b e, b ≤ e → e ≤ (os.foldl specStep []).length →
        ∃ tab', TabOk ps tab' ∧
          get l ps s.1 s.2 b e = some (tab', hashOf ps (((os.foldl specStep []).take e).drop b)) := by
  obtain ⟨s, e, ht', hv⟩ := run_spec hl hp hne os (tab, []) [] ht rfl hos
  exact ⟨s, e, hv.length, fun b e' h1 h2 => get_spec hl hp hne ht' hv h1 h2⟩

/-- **C32**: the hash of a range equals the hash of the same elements assigned to a cumulative hash
of their own; in particular equal ranges of two sequences have equal hashes. -/
theorem C32_position_independent {l : Lim} (hl : LimOk l) {ps : List Par} (hp : ∀ p ∈ ps, ParOk l p)
    (hne : ps ≠ []) {tab : Tab} (ht : TabOk ps tab) (xs ys : List Int) (hx : ElemsOk l xs) (hy : ElemsOk l ys)
    (b e b' e' : Nat) (h1 : b ≤ e) (h2 : e ≤ xs.length) (h1' : b' ≤ e') (h2' : e' ≤ ys.length)
    (h : (xs.take e).drop b = (ys.take e').drop b') :
    ∃ s t u v r, assign l ps tab [] xs = some s ∧ get l ps s.1 s.2 b e = some (u, r) ∧
      assign l ps u [] ys = some t ∧ get l ps t.1 t.2 b' e' = some (v, r) := by
  obtain ⟨s, es, hts, hvs⟩ := step_spec hl hp hne (s := (tab, [])) (xs := []) ht rfl (.assign xs) ⟨rfl, hx⟩
  simp only [specStep, List.nil_append] at hvs
  obtain ⟨u, hu, eu⟩ := get_spec hl hp hne hts hvs h1 h2
  obtain ⟨t, et, htt, hvt⟩ := step_spec hl hp hne (s := (u, [])) (xs := []) hu rfl (.assign ys) ⟨rfl, hy⟩
  simp only [specStep, List.nil_append] at hvt
  obtain ⟨v, hv, ev⟩ := get_spec hl hp hne htt hvt h1' h2'
  rw [← h] at ev
  exact ⟨s, t, u, v, _, es, eu, et, ev⟩

/-- **C32**: the initial state of the static tables is a legal one. -/
theorem C32_tables_initial (ps : List Par) : TabOk ps (ps.map (fun _ => ([], []))) := ⟨0, by simp [tabN, tbl]⟩

/-! ### examples -/

/-- The moduli of the examples: 1009 and 1013 with base 31. -/
def exPs : List Par := [⟨1009, 31, 651⟩, ⟨1013, 31, 915⟩]
def exLim : Lim := ⟨2 ^ 31, 2 ^ 63⟩

theorem exLim_ok : LimOk exLim := ⟨by decide, by decide⟩
theorem exPs_ok : ∀ p ∈ exPs, ParOk exLim p := by
  intro p hp
  simp only [exPs, List.mem_cons, List.not_mem_nil, or_false] at hp
  rcases hp with rfl | rfl
  · exact ⟨by decide, by decide, by decide, by decide, by decide, by decide, by decide⟩
  · exact ⟨by decide, by decide, by decide, by decide, by decide, by decide, by decide⟩

example : ValidRun exLim [] [.assign [104, 101, 108, 108, 111], .push 33, .pop, .push 104, .push 101, .get 5 7] := by
  refine ⟨⟨rfl, ?_⟩, ?_, ?_, ?_, ?_, ?_, trivial⟩
  · intro x hx; simp at hx; rcases hx with rfl | rfl | rfl | rfl <;> decide
  all_goals simp [Valid, specStep, exLim]

example : ((run exLim exPs ([([], []), ([], [])], []) [.assign [104, 101, 108, 108, 111], .push 33, .pop, .push 104, .push 101]).bind
    (fun s => (get exLim exPs s.1 s.2 5 7).map Prod.snd)) =
  ((run exLim exPs ([([], []), ([], [])], []) [.assign [104, 101]]).bind
    (fun s => (get exLim exPs s.1 s.2 0 2).map Prod.snd)) := by decide +kernel

/-- **C32** (negative): with negative elements (`char` of 0x80 and above on the usual platforms) equal
ranges can have different hashes. -/
theorem C32_negative_elements :
    ((assign exLim exPs [([], []), ([], [])] [] [5, -1]).bind
      (fun s => (get exLim exPs s.1 s.2 1 2).map Prod.snd)) = some [1008, 1012] ∧
    ((assign exLim exPs [([], []), ([], [])] [] [-1]).bind
      (fun s => (get exLim exPs s.1 s.2 0 1).map Prod.snd)) = some [-1, -1] := by decide +kernel

/-- **C32** (negative): `assign` on a non-empty object appends the hashes of the new sequence behind
the old ones, so `get(0, 1)` is still the hash of the old first element. -/
theorem C32_assign_twice :
    ((run exLim exPs ([([], []), ([], [])], []) [.assign [1, 2], .assign [3]]).bind
      (fun s => (get exLim exPs s.1 s.2 0 1).map Prod.snd)) = some [1, 1] := by decide +kernel

/-- **C32** (negative): with a modulus above half the range of `I`, `sub_shr` overflows. -/
theorem C32_modulus_too_large :
    ((assign exLim [⟨2147483647, 31, 1⟩] [([], [])] [] [2147483646, 0]).bind
      (fun s => (get exLim [⟨2147483647, 31, 1⟩] s.1 s.2 1 2).map Prod.snd)) = none := by decide +kernel

end Altruct.Hash
