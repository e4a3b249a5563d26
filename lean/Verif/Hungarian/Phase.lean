/-
New labels, augmentation and phases.
-/
import Verif.Hungarian.Tree

namespace Altruct.Hungarian

theorem inj_surj {m : Nat} {p : Nat → Nat} (h : ∀ t, t < m → p t < m) (hi : ∀ t t', t < m → t' < m → p t = p t' → t = t') :
    ∀ x, x < m → ∃ t, t < m ∧ p t = x := by
  intro x hx
  have h1 : (Finset.range m).image p = Finset.range m := by
    refine Finset.eq_of_subset_of_card_le (fun y hy => ?_) ?_
    · obtain ⟨t, ht, rfl⟩ := Finset.mem_image.mp hy
      exact Finset.mem_range.mpr (h t (Finset.mem_range.mp ht))
    · rw [Finset.card_image_of_injOn]
      intro a ha b hb e
      exact hi a b (by simpa using ha) (by simpa using hb) e
  have h2 : x ∈ (Finset.range m).image p := by rw [h1]; exact Finset.mem_range.mpr hx
  obtain ⟨t, ht, e⟩ := Finset.mem_image.mp h2
  exact ⟨t, Finset.mem_range.mp ht, e⟩

section
variable {sz n r : Nat} {c : List Int} {w : Nat → Nat → Int} {rank : Nat → Nat} {a : A}

theorem Tree.exists_notT (h : Tree n w r rank a) : ∃ y, y < n ∧ y ∉ a.T := by
  by_contra hc
  push Not at hc
  have h1 : ∀ y, y < n → ∃ x, x < n ∧ a.yx y = (x : Int) ∧ a.xy x = (y : Int) := by
    intro y hy
    obtain ⟨x, _, e⟩ := h.TS y (hc y hy)
    refine (h.mat.m2 y hy).resolve_left fun h2 => ?_
    omega
  obtain ⟨y, hy, e⟩ := inj_surj (m := n) (p := fun y => (a.yx y).toNat) (fun y hy => by
      obtain ⟨x, h2, h3, _⟩ := h1 y hy
      simp only [h3, Int.toNat_natCast]; exact h2) (fun y y' hy hy' e => by
      obtain ⟨x, h2, h3, h4⟩ := h1 y hy
      obtain ⟨x', h2', h3', h4'⟩ := h1 y' hy'
      simp only [h3, h3', Int.toNat_natCast] at e
      subst e
      omega) r h.rn
  obtain ⟨x, h2, h3, h4⟩ := h1 y hy
  simp only [h3, Int.toNat_natCast] at e
  subst e
  have := (h.mat.exp x h2).mpr (le_refl _)
  omega

theorem calcDelta_spec (h : Tree n w r rank a) {st : St} (hr : Rel sz n st a) :
    ∃ d, calcDelta n st = some d ∧ (∃ y, y < n ∧ y ∉ a.T ∧ a.slack y = d) ∧ ∀ y, y < n → y ∉ a.T → d ≤ a.slack y := by
  obtain ⟨y0, d0, e0, h0⟩ := forBrk_spec (body := fun y (d : Int) => (rd st.T y).bind fun t => if t ≠ 0 then some (false, d) else (rd st.slack y).map fun s => (true, s))
    (fun y _ => ∀ y', y' < y → y' ∈ a.T) (fun y d => y ∉ a.T ∧ a.slack y = d) n 0 0 (fun y' h' => by omega) (by
      intro y d _ hy hp
      have hyn : y < n := by omega
      rw [hr.T.rd hyn, Option.bind_some]
      by_cases hyT : y ∈ a.T
      · rw [if_pos (by rw [ne_eq, ind_eq_zero]; simpa using hyT)]
        refine Or.inl ⟨d, rfl, fun y' h' => ?_⟩
        rcases Nat.lt_or_ge y' y with h1 | h1
        · exact hp y' h1
        · rw [show y' = y by omega]; exact hyT
      · rw [if_neg (by rw [ne_eq, ind_eq_zero]; simpa using hyT), hr.slack.rd hyn]
        exact Or.inr ⟨_, rfl, hyT, rfl⟩)
  rcases h0 with ⟨h1, h2⟩ | ⟨h1, h2, h3⟩
  · obtain ⟨y, h3, h4⟩ := h.exists_notT
    exact absurd (h2 y (by omega)) h4
  · obtain ⟨d, e, h4, h5⟩ := forUp_spec (body := fun y d => (rd st.T y).bind fun t => if t ≠ 0 then some d else (rd st.slack y).map fun s => min d s)
      (fun k d => (∃ y, y < n ∧ y ∉ a.T ∧ a.slack y = d) ∧ ∀ y, y < k → y ∉ a.T → d ≤ a.slack y) (a := 0) (n := n) (s := d0) (Nat.zero_le _)
      ⟨⟨y0, by omega, h2, h3⟩, fun y hy => by omega⟩ (by
        rintro y d _ hy ⟨⟨y1, g1, g2, g3⟩, g4⟩
        rw [hr.T.rd hy, Option.bind_some]
        by_cases hyT : y ∈ a.T
        · rw [if_pos (by rw [ne_eq, ind_eq_zero]; simpa using hyT)]
          refine ⟨d, rfl, ⟨y1, g1, g2, g3⟩, fun y' h' h'' => g4 y' ?_ h''⟩
          by_contra hcc
          exact h'' ((show y' = y by omega) ▸ hyT)
        · rw [if_neg (by rw [ne_eq, ind_eq_zero]; simpa using hyT), hr.slack.rd hy]
          refine ⟨_, rfl, ?_, fun y' h' h'' => ?_⟩
          · rcases Int.le_total d (a.slack y) with g5 | g5
            · exact ⟨y1, g1, g2, by rw [g3]; exact (min_eq_left g5).symm⟩
            · exact ⟨y, hy, hyT, (min_eq_right g5).symm⟩
          · rcases Nat.lt_or_ge y' y with g5 | g5
            · exact le_trans (min_le_left _ _) (g4 y' g5 h'')
            · rw [show y' = y by omega]; exact min_le_right _ _)
    exact ⟨d, by rw [calcDelta, delta0, e0]; exact e, h4, h5⟩

theorem improve_spec (hn : n ≤ sz) (h : Tree n w r rank a) {st : St} (hr : Rel sz n st a) :
    ∃ st' a', improve n st = some st' ∧ Rel sz n st' a' ∧ Tree n w r rank a' ∧ a'.T = a.T ∧ ∃ y, y < n ∧ y ∉ a.T ∧ a'.slack y = 0 := by
  obtain ⟨d, e, ⟨y0, hy0, hy0T, hd⟩, hmin⟩ := calcDelta_spec h hr
  have hd0 : 0 ≤ d := by
    obtain ⟨⟨x, h1, _, h2⟩, _⟩ := h.sl y0 hy0 hy0T
    have := h.mat.feas x y0 (h.Sn x h1) hy0
    omega
  obtain ⟨slack, e1, h1⟩ := updN_spec hn (f := fun y s => (rd st.T y).map fun t => if t = 0 then s - d else s)
    (f' := fun y => if y ∈ a.T then a.slack y else a.slack y - d) (g := a.slack) (v := st.slack) (fun i hi => by
      rw [hr.T.rd hi]
      by_cases hc : i ∈ a.T <;> simp [ind, hc]) hr.slack
  obtain ⟨lx, e2, h2⟩ := updN_spec hn (f := fun x l => (rd st.S x).map fun t => if t ≠ 0 then l - d else l)
    (f' := fun x => if x ∈ a.S then a.lx x - d else a.lx x) (g := a.lx) (v := st.lx) (fun i hi => by
      rw [hr.S.rd hi]
      by_cases hc : i ∈ a.S <;> simp [ind, hc]) hr.lx
  obtain ⟨ly, e3, h3⟩ := updN_spec hn (f := fun y l => (rd st.T y).map fun t => if t ≠ 0 then l + d else l)
    (f' := fun y => if y ∈ a.T then a.ly y + d else a.ly y) (g := a.ly) (v := st.ly) (fun i hi => by
      rw [hr.T.rd hi]
      by_cases hc : i ∈ a.T <;> simp [ind, hc]) hr.ly
  refine ⟨{ st with slack := slack, lx := lx, ly := ly }, { a with slack := (fun y => if y ∈ a.T then a.slack y else a.slack y - d), lx := (fun x => if x ∈ a.S then a.lx x - d else a.lx x), ly := (fun y => if y ∈ a.T then a.ly y + d else a.ly y) }, by rw [improve, e, Option.bind_some, e1, Option.bind_some, e2, Option.bind_some, e3]; rfl,
    ⟨hr.S, hr.T, h2, h3, h1, hr.slackx, hr.prev, hr.q, hr.xy, hr.yx⟩, ?_, rfl, y0, hy0, hy0T, by simp [hy0T, hd]⟩
  refine ⟨⟨fun x y hx hy => ?_, fun x hx => ?_, h.mat.m2, h.mat.exp⟩, h.rn, h.rS, h.rp, h.Sn, h.Tn, h.TS, fun x hx hxr => ?_, fun y hy hyT => ?_, h.rk⟩
  · have g1 := h.mat.feas x y hx hy
    by_cases hS : x ∈ a.S <;> by_cases hT : y ∈ a.T <;> simp only [hS, hT, if_true, if_false]
    · omega
    · have g2 := hmin y hy hT
      have g3 := (h.sl y hy hT).2 x hS
      omega
    · omega
    · omega
  · rcases h.mat.m1 x hx with g1 | ⟨y, g1, g2, g3, g4⟩
    · exact Or.inl g1
    · refine Or.inr ⟨y, g1, g2, g3, ?_⟩
      by_cases hS : x ∈ a.S
      · have hxr : x ≠ r := by
          rintro rfl
          have := (h.mat.exp x hx).mpr (le_refl _)
          omega
        obtain ⟨y', g5, g6, _⟩ := h.ST x hS hxr
        obtain rfl : y' = y := by omega
        simp only [hS, g5, if_true]; omega
      · have hT : y ∉ a.T := by
          intro hT
          obtain ⟨x', g5, g6⟩ := h.TS y hT
          obtain rfl : x' = x := by omega
          exact hS g5
        simp only [hS, hT, if_false]; exact g4
  · obtain ⟨y, g1, g2, x', g3, g4, g5, g6⟩ := h.ST x hx hxr
    refine ⟨y, g1, g2, x', g3, g4, g5, ?_⟩
    simp only [g1, g3, if_true]; omega
  · obtain ⟨⟨x, g1, g2, g3⟩, g4⟩ := h.sl y hy hyT
    simp only [hyT, if_false] at *
    refine ⟨⟨x, g1, g2, ?_⟩, fun x' hx' => ?_⟩
    · simp only [g1, if_true]; omega
    · have := g4 x' hx'
      simp only [hx', if_true]; omega

theorem addLoop_spec (hn : n ≤ sz) (hc : ∀ x y, x < n → y < n → costAt sz c x y = some (w x y)) {st : St} (hr : Rel sz n st a) (ht : Tree n w r rank a) {y0 : Nat} (hy0 : y0 < n)
    (hy0T : y0 ∉ a.T) (hsl : a.slack y0 = 0) (x0 : Int) :
    ∃ y s, forBrk (addStep n sz c) n 0 (x0, (st, 0)) = some (y, s) ∧ ((y = n ∧ ∃ a', Search sz n w r (insert y0 a.T) s.2 a') ∨ ∃ x : Nat, s.1 = (x : Int) ∧ Found sz n w r x y s.2.1) := by
  obtain ⟨y, s, e, h⟩ := forBrk_spec (body := addStep n sz c) (fun y s => ∃ a', Search sz n w r a.T s.2 a' ∧ (y0 ∈ a'.T ∨ (y ≤ y0 ∧ y0 ∉ a'.T ∧ a'.slack y0 = 0)))
    (fun y s => ∃ x : Nat, s.1 = (x : Int) ∧ Found sz n w r x y s.2.1) n 0 (x0, (st, 0)) ⟨a, ⟨hr, ⟨rank, ht⟩, ⟨Nat.zero_le _, fun i hi => by simp at hi⟩, fun z hz => hz⟩, Or.inr ⟨Nat.zero_le _, hy0T, hsl⟩⟩ (by
    rintro y s _ hy ⟨a', ⟨hr, ⟨rank, ht⟩, hq, hT⟩, hd⟩
    have hyn : y < n := by omega
    rw [addStep, hr.T.rd hyn, Option.bind_some, hr.slack.rd hyn, Option.bind_some]
    by_cases hyT : y ∈ a'.T
    · rw [if_pos (Or.inl (by rw [ne_eq, ind_eq_zero]; simpa using hyT))]
      refine Or.inl ⟨s, rfl, a', ⟨hr, ⟨rank, ht⟩, hq, hT⟩, ?_⟩
      rcases hd with hd | ⟨h1, h2, h3⟩
      · exact Or.inl hd
      · refine Or.inr ⟨?_, h2, h3⟩
        have : y ≠ y0 := fun hc => h2 (hc ▸ hyT)
        omega
    · by_cases hs0 : a'.slack y = 0
      · rw [if_neg (by rw [not_or]; exact ⟨by rw [ne_eq, ind_eq_zero]; simpa using hyT, by simpa using hs0⟩), hr.yx.rd hyn, Option.bind_some, hr.slackx.rd hyn, Option.bind_some]
        obtain ⟨⟨x, g1, g2, g3⟩, _⟩ := ht.sl y hyn hyT
        rw [g2]
        have he : w x y = a'.lx x + a'.ly y := by omega
        by_cases hv : a'.yx y = -1
        · rw [if_pos hv]
          exact Or.inr ⟨_, rfl, x, rfl, hyn, a', hr, ⟨rank, ht⟩, g1, hv, he⟩
        · rw [if_neg hv]
          obtain ⟨x', h1, h2, h3⟩ := (ht.mat.m2 y hyn).resolve_left hv
          obtain ⟨k1, k2, k3⟩ := ht.grow hq hyT hyn h2 g1 he
          obtain ⟨T, e1, st', e2, h4⟩ := grow_spec hn hc hr (x := x) k3 hyn h1
          have h5 := (ht.fresh hyT hyn h2).2.1
          rw [e1, Option.bind_some, h2, ix_nat, Option.bind_some, hr.S.rd h1, Option.bind_some, if_pos (ind_eq_zero.mpr h5), e2]
          refine Or.inl ⟨_, rfl, _, ⟨h4, ⟨_, k1⟩, k2, fun z hz => Finset.mem_insert_of_mem (hT hz)⟩, ?_⟩
          by_cases hyy : y = y0
          · subst hyy; exact Or.inl (Finset.mem_insert_self _ _)
          · rcases hd with hd | ⟨g5, g6, g7⟩
            · exact Or.inl (Finset.mem_insert_of_mem hd)
            · refine Or.inr ⟨by omega, fun hcc => ?_, ?_⟩
              · rcases Finset.mem_insert.mp hcc with hcc | hcc
                · exact hyy hcc.symm
                · exact g6 hcc
              · show (if a'.lx x' + a'.ly y0 - w x' y0 < a'.slack y0 then a'.lx x' + a'.ly y0 - w x' y0 else a'.slack y0) = 0
                have := ht.mat.feas x' y0 h1 hy0
                rw [if_neg (by omega)]; exact g7
      · rw [if_pos (Or.inr hs0)]
        refine Or.inl ⟨s, rfl, a', ⟨hr, ⟨rank, ht⟩, hq, hT⟩, ?_⟩
        rcases hd with hd | ⟨h1, h2, h3⟩
        · exact Or.inl hd
        · refine Or.inr ⟨?_, h2, h3⟩
          have : y ≠ y0 := fun hc => hs0 (hc ▸ h3)
          omega)
  refine ⟨y, s, e, ?_⟩
  rcases h with ⟨h1, a', ⟨g1, g2, g3, g4⟩, h2⟩ | ⟨_, h2⟩
  · refine Or.inl ⟨by omega, a', g1, g2, g3, fun z hz => ?_⟩
    rcases Finset.mem_insert.mp hz with rfl | hz
    · rcases h2 with h2 | h2
      · exact h2
      · omega
    · exact g4 hz
  · exact Or.inr h2

theorem mainCycle_spec (hn : n ≤ sz) (hc : ∀ x y, x < n → y < n → costAt sz c x y = some (w x y)) : ∀ (fuel x : Nat) (s : St × Nat) (a : A) (T0 : Finset Nat), n < fuel + T0.card →
    Search sz n w r T0 s a → ∃ (x' : Nat) (y : Nat) (st : St), mainCycle n sz c fuel x n s = some ((x' : Int), y, st) ∧ Found sz n w r x' y st := by
  intro fuel
  induction fuel with
  | zero =>
    rintro x s a T0 hf ⟨_, ⟨rank, ht⟩, _, hT⟩
    have := Finset.card_le_card hT
    have := card_le_of_lt ht.Tn
    omega
  | succ fuel ih =>
    intro x s a T0 hf hs
    obtain ⟨x1, y1, s1, e1, h1⟩ := bfs_spec hn hc (n + 2) 0 x n s a (by omega) (by omega) hs rfl
    rw [mainCycle, e1, Option.bind_some]
    rcases h1 with ⟨rfl, a1, hr1, ⟨rank1, ht1⟩, hq1, hT1⟩ | h1
    · simp only [lt_irrefl, if_false]
      obtain ⟨st2, a2, e2, hr2, ht2, hT2, y0, hy0, hy0T, hy0s⟩ := improve_spec hn ht1 hr1
      rw [e2, Option.bind_some]
      obtain ⟨y3, s3, e3, h3⟩ := addLoop_spec hn hc hr2 ht2 hy0 (by rw [hT2]; exact hy0T) hy0s (y1 : Int)
      rw [e3, Option.bind_some]
      rcases h3 with ⟨rfl, a3, h3⟩ | ⟨x3, h4, h3⟩
      · simp only [lt_irrefl, if_false]
        refine ih y3 s3.2 a3 (insert y0 a2.T) ?_ h3
        rw [hT2, Finset.card_insert_of_notMem hy0T]
        have := Finset.card_le_card hT1
        omega
      · simp only [h3.1, if_true]
        exact ⟨x3, y3, _, by rw [h4], h3⟩
    · simp only [h1.1, if_true]
      exact ⟨x1, y1, _, rfl, h1⟩

/-- Inverting the edges of the path. -/
theorem augment_spec (hn : n ≤ sz) (ht : Tree n w r rank a) : ∀ (fuel x y : Nat) (st : St) (xy yx : Nat → Int), rank x + 1 < fuel → x ∈ a.S → y < n → w x y = a.lx x + a.ly y →
    RepN sz n st.xy xy → RepN sz n st.yx yx → RepN sz n st.prev a.prev → (∀ z ∈ a.S, rank z ≤ rank x → xy z = a.xy z) →
    (∀ z, z < n → xy z = -1 ∨ ∃ y', y' < n ∧ y' ≠ y ∧ xy z = (y' : Int) ∧ yx y' = (z : Int) ∧ w z y' = a.lx z + a.ly y') →
    (∀ y', y' < n → y' ≠ y → yx y' = -1 ∨ ∃ z, z < n ∧ yx y' = (z : Int) ∧ xy z = (y' : Int)) → (∀ z, z < n → (xy z = -1 ↔ r ≤ z)) →
    ∃ st', augment fuel (x : Int) (y : Int) st = some st' ∧ st'.S = st.S ∧ st'.T = st.T ∧ st'.lx = st.lx ∧ st'.ly = st.ly ∧ st'.slack = st.slack ∧ st'.slackx = st.slackx ∧
      st'.prev = st.prev ∧ st'.q = st.q ∧ ∃ xy' yx', RepN sz n st'.xy xy' ∧ RepN sz n st'.yx yx' ∧ Mat n w (r + 1) a.lx a.ly xy' yx' := by
  intro fuel
  induction fuel with
  | zero => intro x y st xy yx h; omega
  | succ fuel ih =>
    intro x y st xy yx hf hx hy htight hxy hyx hprev hold ha hb he
    have hxn := ht.Sn x hx
    rw [augment, if_neg (by omega), ix_nat, Option.bind_some, hxy.rd hxn, Option.bind_some, ix_nat, Option.bind_some, (hyx.wr hn hy _).1, Option.bind_some,
      (hxy.wr hn hxn _).1, Option.bind_some, hprev.rd hxn, Option.bind_some]
    have hxold := hold x hx (le_refl _)
    by_cases hxr : x = r
    · subst hxr
      have hneg : xy x = -1 := (he x hxn).mpr (le_refl _)
      rw [ht.rp]
      cases fuel with
      | zero => omega
      | succ fuel =>
        rw [augment, if_pos rfl]
        refine ⟨_, rfl, rfl, rfl, rfl, rfl, rfl, rfl, rfl, rfl, _, _, (hxy.wr hn hxn _).2, (hyx.wr hn hy _).2, ht.mat.feas, fun z hz => ?_, fun y' hy' => ?_, fun z hz => ?_⟩
        · by_cases hzx : z = x
          · subst hzx
            exact Or.inr ⟨y, hy, Function.update_self _ _ _, Function.update_self _ _ _, htight⟩
          · rw [Function.update_of_ne hzx]
            rcases ha z hz with h1 | ⟨y', h1, h2, h3, h4, h5⟩
            · exact Or.inl h1
            · exact Or.inr ⟨y', h1, h3, by rw [Function.update_of_ne h2]; exact h4, h5⟩
        · by_cases hyy : y' = y
          · subst hyy
            exact Or.inr ⟨x, hxn, Function.update_self _ _ _, Function.update_self _ _ _⟩
          · rw [Function.update_of_ne hyy]
            rcases hb y' hy' hyy with h1 | ⟨z, h1, h2, h3⟩
            · exact Or.inl h1
            · refine Or.inr ⟨z, h1, h2, ?_⟩
              rw [Function.update_of_ne (fun hc => ?_)]
              · exact h3
              · subst hc; omega
        · by_cases hzx : z = x
          · subst hzx
            rw [Function.update_self]
            exact ⟨fun h1 => by omega, fun h1 => by omega⟩
          · rw [Function.update_of_ne hzx, he z hz]
            omega
    · obtain ⟨ty, h1, h2, x', h3, h4, h5, h6⟩ := ht.ST x hx hxr
      have htyn := ht.Tn ty h1
      have hne := hxold.trans h2
      rw [hne, h4]
      obtain ⟨hty, htx⟩ : ty ≠ y ∧ yx ty = (x : Int) := by
        rcases ha x hxn with g1 | ⟨y', g1, g2, g3, g4, g5⟩
        · omega
        · obtain rfl : y' = ty := by omega
          exact ⟨g2, g4⟩
      refine ih x' ty _ _ _ (by omega) h3 htyn h6 (hxy.wr hn hxn _).2 (hyx.wr hn hy _).2 hprev (fun z hz hzr => ?_) (fun z hz => ?_) (fun y' hy' hyy => ?_) (fun z hz => ?_)
      · rw [Function.update_of_ne (fun hc => by subst hc; omega)]
        exact hold z hz (by omega)
      · by_cases hzx : z = x
        · subst hzx
          exact Or.inr ⟨y, hy, Ne.symm hty, Function.update_self _ _ _, Function.update_self _ _ _, htight⟩
        · rw [Function.update_of_ne hzx]
          rcases ha z hz with g1 | ⟨y', g1, g2, g3, g4, g5⟩
          · exact Or.inl g1
          · refine Or.inr ⟨y', g1, fun hc => ?_, g3, by rw [Function.update_of_ne g2]; exact g4, g5⟩
            subst hc; omega
      · by_cases hy2 : y' = y
        · subst hy2
          exact Or.inr ⟨x, hxn, Function.update_self _ _ _, Function.update_self _ _ _⟩
        · rw [Function.update_of_ne hy2]
          rcases hb y' hy' hy2 with g1 | ⟨z, g1, g2, g3⟩
          · exact Or.inl g1
          · refine Or.inr ⟨z, g1, g2, ?_⟩
            rw [Function.update_of_ne (fun hc => ?_)]
            · exact g3
            · subst hc; omega
      · by_cases hzx : z = x
        · subst hzx
          rw [Function.update_self]
          have := he z hz
          constructor
          · intro g1; omega
          · intro g1; have := this.mpr g1; omega
        · rw [Function.update_of_ne hzx]; exact he z hz

/-- The state between two phases. -/
structure Between (sz n : Nat) (w : Nat → Nat → Int) (r : Nat) (st : St) : Prop where
  S : st.S.length = sz
  T : st.T.length = sz
  slack : st.slack.length = sz
  slackx : st.slackx.length = sz
  prev : st.prev.length = sz
  q : st.q.length = sz
  mat : ∃ lx ly xy yx, RepN sz n st.lx lx ∧ RepN sz n st.ly ly ∧ RepN sz n st.xy xy ∧ RepN sz n st.yx yx ∧ Mat n w r lx ly xy yx

theorem repN_self {v : List Int} (hn : n ≤ sz) (hv : v.length = sz) : RepN sz n v (fun i => v.getD i 0) :=
  ⟨hv, fun i hi => by rw [List.getD_eq_getElem?_getD, List.getElem?_eq_getElem (show i < v.length by omega), Option.getD_some]⟩

theorem phase_spec (hn : n ≤ sz) (hc : ∀ x y, x < n → y < n → costAt sz c x y = some (w x y)) {st : St} (hrn : r < n) (h : Between sz n w r st) :
    ∃ st', phase n sz c st = some st' ∧ Between sz n w (r + 1) st' := by
  obtain ⟨lx, ly, xy, yx, hlx, hly, hxy, hyx, hm⟩ := h.mat
  obtain ⟨S, e1, hS⟩ := fillN_spec hn 0 h.S
  obtain ⟨T, e2, hT⟩ := fillN_spec hn 0 h.T
  obtain ⟨prev, e3, hp⟩ := fillN_spec hn (-1) h.prev
  rw [phase, e1, Option.bind_some, e2, Option.bind_some, e3, Option.bind_some]
  have hq := repN_self hn h.q
  have hroot : findRoot n ({ st with S := S, T := T, prev := prev }, 0) =
      some (r, ({ st with S := S.set r 1, T := T, prev := prev.set r (-2), q := st.q.set 0 (r : Int) }, 1)) := by
    rw [findRoot]
    obtain ⟨y, s, e, h1⟩ := forBrk_spec (body := fun x (s : St × Nat) => (rd s.1.xy x).bind fun v => if v ≠ -1 then some (false, s) else
      (wr s.1.q s.2 (x : Int)).bind fun q => (wr s.1.prev x (-2)).bind fun prev => (wr s.1.S x 1).map fun S =>
      (true, ({ s.1 with q := q, prev := prev, S := S }, s.2 + 1)))
      (fun y s => y ≤ r ∧ s = ({ st with S := S, T := T, prev := prev }, 0))
      (fun y s => y = r ∧ s = ({ st with S := S.set r 1, T := T, prev := prev.set r (-2), q := st.q.set 0 (r : Int) }, 1)) n 0
      ({ st with S := S, T := T, prev := prev }, 0) ⟨Nat.zero_le _, rfl⟩ (by
        rintro y s _ hy ⟨h1, rfl⟩
        have hyn : y < n := by omega
        simp only
        rw [hxy.rd hyn, Option.bind_some]
        by_cases hyr : y = r
        · subst hyr
          rw [if_neg (by have := (hm.exp y hyn).mpr (le_refl _); simpa using this), (hq.wr hn (show 0 < n by omega) _).1, Option.bind_some, (hp.wr hn hyn _).1, Option.bind_some,
            (hS.wr hn hyn _).1]
          exact Or.inr ⟨_, rfl, rfl, rfl⟩
        · rw [if_pos (by have := (hm.exp y hyn); intro hcc; have := this.mp hcc; omega)]
          exact Or.inl ⟨_, rfl, by omega, rfl⟩)
    rw [e]
    rcases h1 with ⟨h1, h2, _⟩ | ⟨_, rfl, rfl⟩
    · omega
    · rfl
  rw [hroot, Option.bind_some]
  simp only
  obtain ⟨st2, e4, h4⟩ : ∃ st2, initSlack n sz c r { st with S := S.set r 1, T := T, prev := prev.set r (-2), q := st.q.set 0 (r : Int) } = some st2 ∧
      Rel sz n st2 ⟨{r}, ∅, lx, ly, fun y => lx r + ly y - w r y, fun _ => (r : Int), Function.update (fun _ => -1) r (-2), Function.update (fun i => st.q.getD i 0) 0 (r : Int), xy, yx⟩ := by
    rw [initSlack]
    have hS' : RepN sz n (S.set r 1) (ind {r}) := by
      refine (hS.wr hn hrn 1).2.congr fun i hi => ?_
      by_cases hir : i = r
      · subst hir; simp [ind]
      · rw [Function.update_of_ne hir]; simp [ind, hir]
    have hT' : RepN sz n T (ind ∅) := hT.congr fun i hi => by simp [ind]
    obtain ⟨st2, e, h5⟩ := forUp_spec (body := fun y (st : St) => (rd st.lx r).bind fun a => (rd st.ly y).bind fun b => (costAt sz c r y).bind fun w =>
      (wr st.slack y (a + b - w)).bind fun sl => (wr st.slackx y (r : Int)).map fun sx => { st with slack := sl, slackx := sx })
      (fun k st2 => Rel sz n st2 ⟨{r}, ∅, lx, ly, fun y => if y < k then lx r + ly y - w r y else st.slack.getD y 0, fun y => if y < k then (r : Int) else st.slackx.getD y 0,
        Function.update (fun _ => -1) r (-2), Function.update (fun i => st.q.getD i 0) 0 (r : Int), xy, yx⟩) (a := 0) (n := n)
      (s := { st with S := S.set r 1, T := T, prev := prev.set r (-2), q := st.q.set 0 (r : Int) }) (Nat.zero_le _)
      ⟨hS', hT', hlx, hly, (repN_self hn h.slack).congr fun i _ => by simp, (repN_self hn h.slackx).congr fun i _ => by simp, (hp.wr hn hrn _).2, (hq.wr hn (by omega) _).2, hxy, hyx⟩ (by
        intro y st2 _ hy hr
        rw [hr.lx.rd hrn, Option.bind_some, hr.ly.rd hy, Option.bind_some, hc r y hrn hy, Option.bind_some, (hr.slack.wr hn hy _).1, Option.bind_some, (hr.slackx.wr hn hy _).1]
        refine ⟨_, rfl, hr.S, hr.T, hr.lx, hr.ly, (hr.slack.wr hn hy _).2.congr fun i hi => ?_, (hr.slackx.wr hn hy _).2.congr fun i hi => ?_, hr.prev, hr.q, hr.xy, hr.yx⟩
        · by_cases hiy : i = y
          · subst hiy; rw [Function.update_self]; simp
          · rw [Function.update_of_ne hiy]; simp only [show i < y + 1 ↔ i < y by omega]
        · by_cases hiy : i = y
          · subst hiy; rw [Function.update_self]; simp
          · rw [Function.update_of_ne hiy]; simp only [show i < y + 1 ↔ i < y by omega])
    exact ⟨st2, e, h5.S, h5.T, h5.lx, h5.ly, h5.slack.congr fun i hi => by simp [hi], h5.slackx.congr fun i hi => by simp [hi], h5.prev, h5.q, h5.xy, h5.yx⟩
  rw [e4, Option.bind_some]
  obtain ⟨x', y, st3, e5, h5, a, hr, ⟨rank, ht⟩, hx, hyx', hw⟩ := mainCycle_spec hn hc (n + 2) r (st2, 1) _ ∅ (by simp) ⟨h4, ⟨fun _ => 0, by
    refine ⟨hm, hrn, by simp, by simp, fun x hx => by simp at hx; omega, fun y hy => by simp at hy, fun y hy => by simp at hy, fun x hx hxr => ?_, fun y hy _ => ?_, fun x _ => by simp⟩
    · simp at hx; omega
    · simp⟩, ⟨by simp, fun i hi => ⟨r, by simp, by
      obtain rfl : i = 0 := by simp only at hi; omega
      simp⟩⟩, by simp⟩
  rw [e5, Option.bind_some]
  have hrk := ht.rk x' hx
  have hcard := card_le_of_lt ht.Sn
  obtain ⟨st4, e6, g1, g2, g3, g4, g5, g6, g7, g8, xy', yx', g9, g10, g11⟩ := augment_spec hn ht (n + 2) x' y st3 a.xy a.yx (by omega) hx h5 hw hr.xy hr.yx hr.prev (fun _ _ _ => rfl)
    (fun z hz => by
      rcases ht.mat.m1 z hz with k1 | ⟨y', k1, k2, k3, k4⟩
      · exact Or.inl k1
      · exact Or.inr ⟨y', k1, fun hcc => by subst hcc; omega, k2, k3, k4⟩)
    (fun y' hy' _ => ht.mat.m2 y' hy') ht.mat.exp
  exact ⟨st4, e6, by rw [g1, hr.S.len], by rw [g2, hr.T.len], by rw [g5, hr.slack.len], by rw [g6, hr.slackx.len], by rw [g7, hr.prev.len], by rw [g8, hr.q.len],
    a.lx, a.ly, xy', yx', by rw [g3]; exact hr.lx, by rw [g4]; exact hr.ly, g9, g10, g11⟩

end

end Altruct.Hungarian
