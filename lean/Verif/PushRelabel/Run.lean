/-
The steps of the model on preflows and heights.
-/
import Verif.PushRelabel.Theory

namespace Altruct.PushRelabel

open GraphAlg Finset

/-- What the vectors hold. -/
structure Rp (n : Nat) (s : St) (x : Nat → Nat → Int) (h : Nat → Nat) (e : Nat → Int) (sn : Nat → Nat) : Prop where
  flow : Mat s.flow n x
  height : Rep s.height n h
  excess : Rep s.excess n e
  seen : Rep s.seen n sn

/-- The network. -/
structure Net (n : Nat) (cap : List (List Int)) (adjl : List (List Nat)) (c : Nat → Nat → Int) (a : Nat → List Nat) (src sink : Nat) : Prop where
  hc : Mat cap n c
  hadj : Rep adjl n a
  ha : ∀ w y, y ∈ a w ↔ (w < n ∧ y < n ∧ w ≠ y ∧ Linked c w y)
  hc0 : ∀ u v, u < n → v < n → 0 ≤ c u v
  hsrc : src < n
  hsink : sink < n
  hne : src ≠ sink
  hn : 2 * n ≤ intMax

theorem Mat.congr2 {α : Type} {m : List (List α)} {n : Nat} {f g : Nat → Nat → α} (h : Mat m n f) (hfg : ∀ u v, u < n → v < n → f u v = g u v) : Mat m n g :=
  ⟨h.len, fun u hu => by obtain ⟨r, e, hr⟩ := h.row u hu; exact ⟨r, e, hr.congr (fun v hv => hfg u v hu hv)⟩⟩

theorem push_spec {n : Nat} {cap : List (List Int)} {c : Nat → Nat → Int} (hc : Mat cap n c) {s : St} {x h e sn} (R : Rp n s x h e sn) {u v : Nat} (hu : u < n) (hv : v < n) (huv : u ≠ v) :
    ∃ s', push cap u v s = some s' ∧ Rp n s' (sent x u v (min (e u) (c u v - x u v))) h (moved e u v (min (e u) (c u v - x u v))) sn := by
  obtain ⟨f1, e1, h1⟩ := R.flow.wr2 hu hv (x u v + min (e u) (c u v - x u v))
  obtain ⟨f2, e2, h2⟩ := h1.wr2 hv hu (x v u - min (e u) (c u v - x u v))
  have h3 := R.excess.set u (e u - min (e u) (c u v - x u v))
  have h4 := h3.set v (e v + min (e u) (c u v - x u v))
  refine ⟨⟨f2, s.height, _, s.seen⟩, ?_, h2, R.height, h4.congr (fun w hw => ?_), R.seen⟩
  · rw [push, R.excess.rd hu, Option.bind_some, hc.rd2 hu hv, Option.bind_some, R.flow.rd2 hu hv, Option.bind_some]
    show (wr2 s.flow u v (x u v + min (e u) (c u v - x u v))).bind _ = _
    rw [e1, Option.bind_some, h1.rd2 hv hu, Option.bind_some, upd2_ne _ _ _ _ (by omega), e2, Option.bind_some, R.excess.wr hu, Option.bind_some, h3.rd hv, Option.bind_some,
      Function.update_of_ne (Ne.symm huv), h3.wr hv]
    rfl
  · rw [moved]
    by_cases w1 : w = v
    · subst w1; rw [Function.update_self, if_pos rfl, if_neg (Ne.symm huv)]; omega
    · rw [Function.update_of_ne w1, if_neg w1]
      by_cases w2 : w = u
      · subst w2; rw [Function.update_self, if_pos rfl]; omega
      · rw [Function.update_of_ne w2, if_neg w2]; omega

theorem push_self {n : Nat} {cap : List (List Int)} {c : Nat → Nat → Int} (hc : Mat cap n c) {s : St} {x h e sn} (R : Rp n s x h e sn) {u : Nat} (hu : u < n) :
    ∃ s', push cap u u s = some s' ∧ Rp n s' x h e sn := by
  obtain ⟨f1, e1, h1⟩ := R.flow.wr2 hu hu (x u u + min (e u) (c u u - x u u))
  obtain ⟨f2, e2, h2⟩ := h1.wr2 hu hu (x u u + min (e u) (c u u - x u u) - min (e u) (c u u - x u u))
  have h3 := R.excess.set u (e u - min (e u) (c u u - x u u))
  have h4 := h3.set u (e u - min (e u) (c u u - x u u) + min (e u) (c u u - x u u))
  refine ⟨⟨f2, s.height, _, s.seen⟩, ?_, Mat.congr2 h2 (fun a b ha hb => ?_), R.height, h4.congr (fun w hw => ?_), R.seen⟩
  · rw [push, R.excess.rd hu, Option.bind_some, hc.rd2 hu hu, Option.bind_some, R.flow.rd2 hu hu, Option.bind_some]
    show (wr2 s.flow u u (x u u + min (e u) (c u u - x u u))).bind _ = _
    rw [e1, Option.bind_some, h1.rd2 hu hu, Option.bind_some, upd2_self, e2, Option.bind_some, R.excess.wr hu, Option.bind_some, h3.rd hu, Option.bind_some,
      Function.update_self, h3.wr hu]
    rfl
  · by_cases hab : a = u ∧ b = u
    · rw [hab.1, hab.2, upd2_self]; omega
    · rw [upd2_ne _ _ _ _ hab, upd2_ne _ _ _ _ hab]
  · by_cases w1 : w = u
    · subst w1; rw [Function.update_self]; omega
    · rw [Function.update_of_ne w1, Function.update_of_ne w1]

/-! ### Relabelling -/

theorem relabelLoop_spec {n : Nat} {cap flow : List (List Int)} {c x : Nat → Nat → Int} (hc : Mat cap n c) (hx : Mat flow n x) {u : Nat} (hu : u < n) {h : Nat → Nat} :
    ∀ (vs : List Nat) (mh : Nat) (height : List Nat) (k0 : Nat), (∀ v ∈ vs, v < n ∧ v ≠ u) → (∀ v ∈ vs, x u v < c u v → h v < intMax) → Rep height n (Function.update h u k0) →
    ∃ height' k, relabelLoop cap flow u vs mh height = some height' ∧ Rep height' n (Function.update h u k) ∧
      (((∀ v ∈ vs, ¬ x u v < c u v) ∧ k = k0) ∨ (k ≤ mh + 1 ∧ (∀ v ∈ vs, x u v < c u v → k ≤ h v + 1) ∧ (∃ v ∈ vs, x u v < c u v) ∧ (k = mh + 1 ∨ ∃ v ∈ vs, x u v < c u v ∧ k = h v + 1))) := by
  intro vs
  induction vs with
  | nil => intro mh height k0 _ _ hr; exact ⟨height, k0, rfl, hr, Or.inl ⟨by simp, rfl⟩⟩
  | cons v vs ih =>
    intro mh height k0 hvs hlim hr
    obtain ⟨hv, hvu⟩ := hvs v (List.mem_cons_self ..)
    have hvs' : ∀ v ∈ vs, v < n ∧ v ≠ u := fun w hw => hvs w (List.mem_cons_of_mem _ hw)
    have hlim' : ∀ v ∈ vs, x u v < c u v → h v < intMax := fun w hw => hlim w (List.mem_cons_of_mem _ hw)
    rw [relabelLoop, hc.rd2 hu hv, Option.bind_some, hx.rd2 hu hv, Option.bind_some]
    by_cases hres : c u v - x u v > 0
    · rw [if_pos hres, hr.rd hv, Option.bind_some, Function.update_of_ne hvu]
      have hl := hlim v (List.mem_cons_self ..) (by omega)
      have hr' : Rep (height.set u (min mh (h v) + 1)) n (Function.update h u (min mh (h v) + 1)) := by
        have := hr.set u (min mh (h v) + 1)
        rwa [Function.update_idem] at this
      obtain ⟨height', k, g1, g2, g3⟩ := ih (min mh (h v)) _ _ hvs' hlim' hr'
      refine ⟨height', k, ?_, g2, Or.inr ?_⟩
      · show (if min mh (h v) + 1 > intMax then none else (wr height u (min mh (h v) + 1)).bind fun height => relabelLoop cap flow u vs (min mh (h v)) height) = _
        rw [if_neg (by omega), hr.wr hu, Option.bind_some, g1]
      · rcases g3 with ⟨g3, rfl⟩ | ⟨g3, g4, g5, g6⟩
        · refine ⟨by omega, fun w hw hwr => ?_, ⟨v, List.mem_cons_self .., by omega⟩, ?_⟩
          · rcases List.mem_cons.mp hw with rfl | hw
            · omega
            · exact absurd hwr (g3 w hw)
          · by_cases hm : mh ≤ h v
            · left; omega
            · exact Or.inr ⟨v, List.mem_cons_self .., by omega, by omega⟩
        · refine ⟨by omega, fun w hw hwr => ?_, ⟨v, List.mem_cons_self .., by omega⟩, ?_⟩
          · rcases List.mem_cons.mp hw with rfl | hw
            · omega
            · exact g4 w hw hwr
          · rcases g6 with g6 | ⟨w, hw, g6⟩
            · by_cases hm : mh ≤ h v
              · left; omega
              · exact Or.inr ⟨v, List.mem_cons_self .., by omega, by omega⟩
            · exact Or.inr ⟨w, List.mem_cons_of_mem _ hw, g6⟩
    · rw [if_neg hres]
      obtain ⟨height', k, g1, g2, g3⟩ := ih mh height k0 hvs' hlim' hr
      refine ⟨height', k, g1, g2, ?_⟩
      rcases g3 with ⟨g3, rfl⟩ | ⟨g3, g4, ⟨w, hw, g5⟩, g6⟩
      · left
        refine ⟨fun w hw => ?_, rfl⟩
        rcases List.mem_cons.mp hw with rfl | hw
        · omega
        · exact g3 w hw
      · right
        refine ⟨g3, fun w hw hwr => ?_, ⟨w, List.mem_cons_of_mem _ hw, g5⟩, g6.imp id (fun ⟨w, hw, g⟩ => ⟨w, List.mem_cons_of_mem _ hw, g⟩)⟩
        rcases List.mem_cons.mp hw with rfl | hw
        · omega
        · exact g4 w hw hwr

section
variable {n : Nat} {cap : List (List Int)} {adjl : List (List Nat)} {c : Nat → Nat → Int} {a : Nat → List Nat} {src sink : Nat}

/-- What can be sent goes to a neighbour. -/
theorem Net.mem (N : Net n cap adjl c a src sink) {x h e} (I : Inv n c src sink x h e) {u v : Nat} (hu : u < n) (hv : v < n) (huv : v ≠ u) (hr : x u v < c u v) : v ∈ a u := by
  refine (N.ha u v).mpr ⟨hu, hv, Ne.symm huv, ?_⟩
  have h1 := I.le v u hv hu
  have h2 := I.skew u v hu hv
  have h3 := N.hc0 u v hu hv
  unfold Linked
  omega

/-- A node with an excess whose neighbours have all been seen rises. -/
theorem relabel_spec (N : Net n cap adjl c a src sink) {s : St} {x h e sn} (R : Rp n s x h e sn) (I : Inv n c src sink x h e) (hb : ∀ v, v < n → h v < 2 * n)
    {u : Nat} (hu : u < n) (hus : u ≠ src) (hut : u ≠ sink) (he : 0 < e u) (hseen : ∀ v ∈ a u, ¬ Adm c x h u v) :
    ∃ s' k, relabel cap adjl u s = some s' ∧ h u < k ∧ k < 2 * n ∧ Rp n s' x (Function.update h u k) e sn ∧ Inv n c src sink x (Function.update h u k) e := by
  have hn := N.hn
  have hlt : ∀ v ∈ a u, v < n ∧ v ≠ u := fun v hv => ⟨((N.ha u v).mp hv).2.1, Ne.symm ((N.ha u v).mp hv).2.2.1⟩
  obtain ⟨height', k, g1, g2, g3⟩ := relabelLoop_spec N.hc R.flow hu (h := h) (a u) intMax s.height (h u) hlt
    (fun v hv _ => by have := hb v (hlt v hv).1; omega) (by rw [Function.update_eq_self]; exact R.height)
  obtain ⟨a', ha', b, hb', hab⟩ := leave I N.hc0 (R := {u}) (by simpa using hu) (by simpa using Ne.symm hus) (mem_singleton_self u) he
  rw [mem_singleton] at ha'
  subst ha'
  rw [mem_sdiff, mem_range, mem_singleton] at hb'
  have hba := N.mem I hu hb'.1 hb'.2 hab
  rcases g3 with ⟨g3, _⟩ | ⟨g3, g4, _, g6⟩
  · exact absurd hab (g3 b hba)
  · have hk : ∃ v ∈ a a', x a' v < c a' v ∧ k = h v + 1 := by
      rcases g6 with g6 | g6
      · have := g4 b hba hab
        have := hb b hb'.1
        omega
      · exact g6
    obtain ⟨v, hv, hvr, hvk⟩ := hk
    have hge : h a' ≤ h v := by
      by_contra hlt
      exact hseen v hv ⟨hvr, by omega⟩
    have I' : Inv n c src sink x (Function.update h a' k) e := I.relabel hus hut (by omega) (fun w hw hwu hwr => g4 w (N.mem I hu hw hwu hwr) hwr)
    refine ⟨{ s with height := height' }, k, ?_, by omega, ?_, ⟨R.flow, g2, R.excess, R.seen⟩, I'⟩
    · rw [relabel, N.hadj.rd hu, Option.bind_some, g1]; rfl
    · have := height_lt I' N.hc0 N.hsrc hu hus he
      rwa [Function.update_self] at this

/-! ### Discharging -/

/-- What discharging `u` does. -/
structure Post (n : Nat) (c : Nat → Nat → Int) (u : Nat) (x : Nat → Nat → Int) (h : Nat → Nat) (e : Nat → Int) (x' : Nat → Nat → Int) (h' : Nat → Nat) (e' : Nat → Int) : Prop where
  zero : e' u = 0
  other : ∀ w, w ≠ u → h' w = h w
  up : h u ≤ h' u
  bound : ∀ w, w < n → h' w < 2 * n
  adm : ∀ v w, v < n → w < n → Adm c x' h' v w → (h' u = h u ∧ Adm c x h v w) ∨ (h u < h' u ∧ w ≠ u ∧ (v = u ∨ Adm c x h v w))
  recv : h' u = h u → ∀ w, w ≠ u → e' w ≠ e w → Adm c x h u w

/-- The first `k` neighbours of `u` have been seen. -/
def SeenOk (a : Nat → List Nat) (c x : Nat → Nat → Int) (h : Nat → Nat) (u k : Nat) : Prop := ∀ i v, i < k → (a u)[i]? = some v → ¬ Adm c x h u v

theorem Post.of_push {u v : Nat} {x h e x' h' e'} {d : Int} (P : Post n c u (sent x u v d) h (moved e u v d) x' h' e') (huv : u ≠ v) (hd : 0 ≤ d) (hadm : Adm c x h u v) : Post n c u x h e x' h' e' := by
  refine ⟨P.zero, P.other, P.up, P.bound, fun p q hp hq hpq => ?_, fun heq w hw hne => ?_⟩
  · rcases P.adm p q hp hq hpq with ⟨g1, g2⟩ | ⟨g1, g2, g3⟩
    · exact Or.inl ⟨g1, Adm.of_push huv hd hadm.2 g2⟩
    · exact Or.inr ⟨g1, g2, g3.imp id (Adm.of_push huv hd hadm.2)⟩
  · by_cases h1 : e' w = moved e u v d w
    · rw [h1, moved, if_neg hw] at hne
      by_cases h2 : w = v
      · subst h2; exact hadm
      · rw [if_neg h2] at hne; omega
    · exact Adm.of_push huv hd hadm.2 (P.recv heq w hw h1)

theorem Post.of_relabel {u k : Nat} {x h e x' h' e'} (P : Post n c u x (Function.update h u k) e x' h' e') (hk : h u < k) (I : Inv n c src sink x h e) (hu : u < n) : Post n c u x h e x' h' e' := by
  have hup := P.up
  rw [Function.update_self] at hup
  refine ⟨P.zero, fun w hw => by rw [P.other w hw, Function.update_of_ne hw], by omega, P.bound, fun p q hp hq hpq => ?_, fun heq => by omega⟩
  have key : Adm c x (Function.update h u k) p q → q ≠ u ∧ (p = u ∨ Adm c x h p q) := by
    intro g
    obtain ⟨g1, g2⟩ := g
    by_cases hqu : q = u
    · exfalso
      subst hqu
      rw [Function.update_self] at g2
      by_cases hpu : p = q
      · subst hpu; rw [Function.update_self] at g2; omega
      · rw [Function.update_of_ne hpu] at g2
        have := I.valid p q hp hu g1
        omega
    · refine ⟨hqu, ?_⟩
      by_cases hpu : p = u
      · exact Or.inl hpu
      · rw [Function.update_of_ne hqu, Function.update_of_ne hpu] at g2
        exact Or.inr ⟨g1, g2⟩
  right
  rcases P.adm p q hp hq hpq with ⟨g1, g2⟩ | ⟨g1, g2, g3⟩
  · obtain ⟨k1, k2⟩ := key g2
    exact ⟨by omega, k1, k2⟩
  · rcases g3 with g3 | g3
    · exact ⟨by omega, g2, Or.inl g3⟩
    · exact ⟨by omega, g2, (key g3).2⟩

theorem Post.refl {u : Nat} {x h e} (he : e u = 0) (hb : ∀ v, v < n → h v < 2 * n) : Post n c u x h e x h e :=
  ⟨he, fun _ _ => rfl, le_refl _, hb, fun _ _ _ _ g => Or.inl ⟨rfl, g⟩, fun _ _ _ hne => absurd rfl hne⟩

theorem dischargeLoop_spec (N : Net n cap adjl c a src sink) {u : Nat} (hu : u < n) (hus : u ≠ src) (hut : u ≠ sink) {sn : Nat → Nat} :
    ∀ (H L it : Nat) (s : St) (x : Nat → Nat → Int) (h : Nat → Nat) (e : Nat → Int), 2 * n - h u = H → (a u).length - it = L → Rp n s x h e sn → Inv n c src sink x h e →
    (∀ v, v < n → h v < 2 * n) → (∀ w, w < n → w ≠ u → SeenOk a c x h w (sn w)) → SeenOk a c x h u it →
    ∃ F s' it' x' h' e', (∀ fuel, F ≤ fuel → dischargeLoop cap adjl u fuel it s = some (s', it')) ∧ Rp n s' x' h' e' sn ∧ Inv n c src sink x' h' e' ∧
      (∀ w, w < n → w ≠ u → SeenOk a c x' h' w (sn w)) ∧ SeenOk a c x' h' u it' ∧ Post n c u x h e x' h' e' := by
  intro H
  induction H using Nat.strong_induction_on with
  | _ H ihH =>
  intro L
  induction L using Nat.strong_induction_on with
  | _ L ihL =>
  intro it s x h e hH hL R I hb hS hSu
  by_cases he : e u > 0
  · by_cases hit : it < (a u).length
    · have hmem : (a u)[it] ∈ a u := List.getElem_mem hit
      have hget : (a u)[it]? = some (a u)[it] := List.getElem?_eq_getElem hit
      generalize (a u)[it] = v at hmem hget
      obtain ⟨_, hv, huv, _⟩ := (N.ha u v).mp hmem
      by_cases hadm : c u v - x u v > 0 ∧ h u > h v
      · obtain ⟨s1, e1, R1⟩ := push_spec N.hc R hu hv huv
        have hd0 : 0 ≤ min (e u) (c u v - x u v) := by omega
        have I1 := I.push hu hv huv hd0 (by omega) (by omega) hadm.2
        have hA : Adm c x h u v := ⟨by omega, hadm.2⟩
        have hS1 : ∀ w k, SeenOk a c x h w k → SeenOk a c (sent x u v (min (e u) (c u v - x u v))) h w k := fun w k g i y hi hy hc => g i y hi hy (Adm.of_push huv hd0 hadm.2 hc)
        have hstep : ∀ fuel, dischargeLoop cap adjl u (fuel + 1) it s = dischargeLoop cap adjl u fuel it s1 := fun fuel => by
          rw [dischargeLoop, R.excess.rd hu, Option.bind_some, if_pos he, N.hadj.rd hu, Option.bind_some, if_pos hit, rd, hget, Option.bind_some, N.hc.rd2 hu hv, Option.bind_some,
            R.flow.rd2 hu hv, Option.bind_some, R.height.rd hu, Option.bind_some, R.height.rd hv, Option.bind_some, if_pos hadm, e1, Option.bind_some]
        have hm : moved e u v (min (e u) (c u v - x u v)) u = e u - min (e u) (c u v - x u v) := by
          rw [moved, if_neg huv, if_pos rfl]; omega
        by_cases he1 : moved e u v (min (e u) (c u v - x u v)) u > 0
        · have hsat : ¬ (c u v - sent x u v (min (e u) (c u v - x u v)) u v > 0 ∧ h u > h v) := by
            rw [sent_uv huv]; omega
          have hstep2 : ∀ fuel, dischargeLoop cap adjl u (fuel + 1) it s1 = dischargeLoop cap adjl u fuel (it + 1) s1 := fun fuel => by
            rw [dischargeLoop, R1.excess.rd hu, Option.bind_some, if_pos he1, N.hadj.rd hu, Option.bind_some, if_pos hit, rd, hget, Option.bind_some, N.hc.rd2 hu hv, Option.bind_some,
              R1.flow.rd2 hu hv, Option.bind_some, R1.height.rd hu, Option.bind_some, R1.height.rd hv, Option.bind_some, if_neg hsat]
          obtain ⟨F, s', it', x', h', e', k1, k2, k3, k4, k5, k6⟩ := ihL ((a u).length - (it + 1)) (by omega) (it + 1) s1 _ h _ hH rfl R1 I1 hb (fun w hw hwu => hS1 _ _ (hS w hw hwu))
            (fun i y hi hy hc => by
              by_cases hii : i = it
              · subst hii
                rw [hget] at hy
                cases hy
                exact hsat ⟨by have := hc.1; omega, hc.2⟩
              · exact hS1 _ _ hSu i y (by omega) hy hc)
          refine ⟨F + 2, s', it', x', h', e', fun fuel hf => ?_, k2, k3, k4, k5, k6.of_push huv hd0 hA⟩
          obtain ⟨g, rfl⟩ : ∃ g, fuel = g + 2 := ⟨fuel - 2, by omega⟩
          rw [hstep, hstep2, k1 g (by omega)]
        · have hz : moved e u v (min (e u) (c u v - x u v)) u = 0 := by have := I1.nonneg u hu hus; omega
          refine ⟨2, s1, it, _, h, _, fun fuel hf => ?_, R1, I1, fun w hw hwu => hS1 _ _ (hS w hw hwu), hS1 _ _ hSu, (Post.refl hz hb).of_push huv hd0 hA⟩
          obtain ⟨g, rfl⟩ : ∃ g, fuel = g + 2 := ⟨fuel - 2, by omega⟩
          rw [hstep, dischargeLoop, R1.excess.rd hu, Option.bind_some, if_neg he1]
      · obtain ⟨F, s', it', x', h', e', k1, k⟩ := ihL ((a u).length - (it + 1)) (by omega) (it + 1) s x h e hH rfl R I hb hS
          (fun i y hi hy hc => by
            by_cases hii : i = it
            · subst hii
              rw [hget] at hy
              cases hy
              exact hadm ⟨by have := hc.1; omega, hc.2⟩
            · exact hSu i y (by omega) hy hc)
        refine ⟨F + 1, s', it', x', h', e', fun fuel hf => ?_, k⟩
        obtain ⟨g, rfl⟩ : ∃ g, fuel = g + 1 := ⟨fuel - 1, by omega⟩
        rw [dischargeLoop, R.excess.rd hu, Option.bind_some, if_pos he, N.hadj.rd hu, Option.bind_some, if_pos hit, rd, hget, Option.bind_some, N.hc.rd2 hu hv, Option.bind_some,
          R.flow.rd2 hu hv, Option.bind_some, R.height.rd hu, Option.bind_some, R.height.rd hv, Option.bind_some, if_neg hadm, k1 g (by omega)]
    · obtain ⟨s1, k, g1, g2, g3, R1, I1⟩ := relabel_spec N R I hb hu hus hut he (fun v hv => by
        obtain ⟨i, hi, rfl⟩ := List.getElem_of_mem hv
        exact hSu i _ (by omega) (List.getElem?_eq_getElem hi))
      obtain ⟨F, s', it', x', h', e', k1, k2, k3, k4, k5, k6⟩ := ihH (2 * n - k) (by omega) _ 0 s1 x (Function.update h u k) e (by rw [Function.update_self]) rfl R1 I1
        (fun v hv => by
          by_cases hvu : v = u
          · subst hvu; rw [Function.update_self]; exact g3
          · rw [Function.update_of_ne hvu]; exact hb v hv)
        (fun w hw hwu i y hi hy hc => by
          refine hS w hw hwu i y hi hy ⟨hc.1, ?_⟩
          have h2 := hc.2
          rw [Function.update_of_ne hwu] at h2
          by_cases hyu : y = u
          · subst hyu; rw [Function.update_self] at h2; omega
          · rwa [Function.update_of_ne hyu] at h2)
        (fun i y hi => absurd hi (Nat.not_lt_zero _))
      refine ⟨F + 1, s', it', x', h', e', fun fuel hf => ?_, k2, k3, k4, k5, k6.of_relabel g2 I hu⟩
      obtain ⟨g, rfl⟩ : ∃ g, fuel = g + 1 := ⟨fuel - 1, by omega⟩
      rw [dischargeLoop, R.excess.rd hu, Option.bind_some, if_pos he, N.hadj.rd hu, Option.bind_some, if_neg hit, g1, Option.bind_some, k1 g (by omega)]
  · have hz : e u = 0 := by have := I.nonneg u hu hus; omega
    refine ⟨1, s, it, x, h, e, fun fuel hf => ?_, R, I, hS, hSu, Post.refl hz hb⟩
    obtain ⟨g, rfl⟩ : ∃ g, fuel = g + 1 := ⟨fuel - 1, by omega⟩
    rw [dischargeLoop, R.excess.rd hu, Option.bind_some, if_neg he]

/-- The state between two discharges. -/
structure Good (n : Nat) (c : Nat → Nat → Int) (a : Nat → List Nat) (src sink : Nat) (s : St) (x : Nat → Nat → Int) (h : Nat → Nat) (e : Nat → Int) : Prop where
  rep : ∃ sn, Rp n s x h e sn ∧ ∀ w, w < n → SeenOk a c x h w (sn w)
  inv : Inv n c src sink x h e
  bound : ∀ v, v < n → h v < 2 * n

theorem discharge_spec (N : Net n cap adjl c a src sink) {u : Nat} (hu : u < n) (hus : u ≠ src) (hut : u ≠ sink) {s x h e} (G : Good n c a src sink s x h e) :
    ∃ F s' x' h' e', (∀ fuel, F ≤ fuel → discharge fuel cap adjl u s = some s') ∧ Good n c a src sink s' x' h' e' ∧ Post n c u x h e x' h' e' := by
  obtain ⟨sn, R, hS⟩ := G.rep
  obtain ⟨F, s', it', x', h', e', k1, k2, k3, k4, k5, k6⟩ := dischargeLoop_spec N hu hus hut _ _ (sn u) s x h e rfl rfl R G.inv G.bound (fun w hw _ => hS w hw) (hS u hu)
  refine ⟨F, { s' with seen := s'.seen.set u it' }, x', h', e', fun fuel hf => ?_, ⟨⟨_, ⟨k2.flow, k2.height, k2.excess, k2.seen.set u it'⟩, fun w hw => ?_⟩, k3, k6.bound⟩, k6⟩
  · rw [discharge, R.seen.rd hu, Option.bind_some, k1 fuel hf, Option.bind_some, k2.seen.wr hu]; rfl
  · by_cases hwu : w = u
    · subst hwu; rw [Function.update_self]; exact k5
    · rw [Function.update_of_ne hwu]; exact k4 w hw hwu

/-! ### The queue -/

/-- Nothing goes forward against the queue. -/
def Topo (c x : Nat → Nat → Int) (h : Nat → Nat) (que : List Nat) : Prop := que.Pairwise (fun v w => ¬ Adm c x h w v)

/-- What the main loop needs of the new queue. -/
def Reorders (n : Nat) (c : Nat → Nat → Int) (reorder : List Nat → List Nat → Nat → Nat → List Nat) : Prop :=
  ∀ (pre rest : List Nat) (u : Nat) (height : List Nat) (x h e x' h' e'), Rep height n h' → (∀ v ∈ pre ++ u :: rest, v < n) → (pre ++ u :: rest).Nodup → Topo c x h (pre ++ u :: rest) →
    Post n c u x h e x' h' e' → h u < h' u → (reorder height (pre ++ u :: rest) pre.length u).Perm (pre ++ u :: rest) ∧ Topo c x' h' (reorder height (pre ++ u :: rest) pre.length u)

theorem select_spec (N : Net n cap adjl c a src sink) {reorder} (hre : Reorders n c reorder) :
    ∀ (P : Nat) (rest pre : List Nat) (s : St) (x : Nat → Nat → Int) (h : Nat → Nat) (e : Nat → Int), ∑ v ∈ range n, (2 * n - h v) = P → Good n c a src sink s x h e →
    (∀ v ∈ pre ++ rest, v < n ∧ v ≠ src ∧ v ≠ sink) → (pre ++ rest).Nodup → Topo c x h (pre ++ rest) → (∀ v ∈ pre, e v = 0) →
    ∃ F s' x' h' e', (∀ fd fuel, F ≤ fd → F ≤ fuel → select reorder fd cap adjl fuel (pre ++ rest) pre.length s = some s') ∧ Good n c a src sink s' x' h' e' ∧ ∀ v ∈ pre ++ rest, e' v = 0 := by
  intro P
  induction P using Nat.strong_induction_on with
  | _ P ihP =>
  intro rest
  induction rest with
  | nil =>
    intro pre s x h e _ G hq _ _ h0
    refine ⟨1, s, x, h, e, fun fd fuel hfd hf => ?_, G, by rw [List.append_nil]; exact h0⟩
    obtain ⟨g, rfl⟩ : ∃ g, fuel = g + 1 := ⟨fuel - 1, by omega⟩
    rw [select, if_neg (by simp)]
  | cons u rest ih =>
    intro pre s x h e hP G hq hnd hT h0
    obtain ⟨hu, hus, hut⟩ := hq u (by simp)
    obtain ⟨F, s1, x1, h1, e1, k1, G1, Q⟩ := discharge_spec N hu hus hut G
    obtain ⟨sn, R, _⟩ := G.rep
    obtain ⟨sn1, R1, _⟩ := G1.rep
    have hlen : pre.length < (pre ++ u :: rest).length := by simp
    have hget : rd (pre ++ u :: rest) pre.length = some u := by rw [rd]; simp
    by_cases hup : h1 u > h u
    · obtain ⟨p1, p2⟩ := hre pre rest u s1.height x h e x1 h1 e1 R1.height (fun v hv => (hq v hv).1) hnd hT Q hup
      have hlt : ∑ v ∈ range n, (2 * n - h1 v) < P := by
        rw [← hP]
        refine sum_lt_sum (fun v hv => ?_) ⟨u, mem_range.mpr hu, by have := G1.bound u hu; omega⟩
        by_cases hvu : v = u
        · subst hvu; omega
        · rw [Q.other v hvu]
      generalize hqq : reorder s1.height (pre ++ u :: rest) pre.length u = que' at p1 p2
      obtain ⟨F2, s', x', h', e', g1, g2, g3⟩ := ihP _ hlt que' [] s1 x1 h1 e1 rfl G1 (fun v hv => hq v (p1.mem_iff.mp hv)) (p1.nodup_iff.mpr hnd) p2 (by simp)
      refine ⟨F + F2 + 1, s', x', h', e', fun fd fuel hfd hf => ?_, g2, fun v hv => g3 v (p1.mem_iff.mpr hv)⟩
      obtain ⟨g, rfl⟩ : ∃ g, fuel = g + 1 := ⟨fuel - 1, by omega⟩
      rw [select, if_pos hlen, hget, Option.bind_some, R.height.rd hu, Option.bind_some, k1 fd (by omega), Option.bind_some, R1.height.rd hu, Option.bind_some, if_pos hup, hqq]
      exact g1 fd g (by omega) (by omega)
    · have heq : h1 u = h u := by have := Q.up; omega
      have hall : h1 = h := by
        funext w
        by_cases hw : w = u
        · rw [hw]; exact heq
        · exact Q.other w hw
      subst hall
      have hassoc : pre ++ u :: rest = (pre ++ [u]) ++ rest := by simp
      have hT1 : Topo c x1 h1 ((pre ++ [u]) ++ rest) := by
        rw [← hassoc]
        refine List.Pairwise.imp_of_mem (fun hv hw hvw hc => ?_) hT
        rcases Q.adm _ _ (hq _ hw).1 (hq _ hv).1 hc with ⟨_, g⟩ | ⟨g, _⟩
        · exact hvw g
        · omega
      obtain ⟨F2, s', x', h', e', g1, g2, g3⟩ := ih (pre ++ [u]) s1 x1 h1 e1 hP G1 (by rw [← hassoc]; exact hq) (by rw [← hassoc]; exact hnd) hT1 (fun v hv => by
        rcases List.mem_append.mp hv with hv' | hv'
        · by_contra hne
          have hvu : v ≠ u := by
            rintro rfl
            exact (List.nodup_append.mp hnd).2.2 v hv' v (by simp) rfl
          exact (List.pairwise_append.mp hT).2.2 v hv' u (by simp) (Q.recv rfl v hvu (by rw [h0 v hv']; exact hne))
        · rw [List.mem_singleton.mp hv']; exact Q.zero)
      refine ⟨F + F2 + 1, s', x', h', e', fun fd fuel hfd hf => ?_, g2, by rw [hassoc]; exact g3⟩
      obtain ⟨g, rfl⟩ : ∃ g, fuel = g + 1 := ⟨fuel - 1, by omega⟩
      rw [select, if_pos hlen, hget, Option.bind_some, R.height.rd hu, Option.bind_some, k1 fd (by omega), Option.bind_some, R1.height.rd hu, Option.bind_some, if_neg (by omega)]
      have := g1 fd g (by omega) (by omega)
      rw [← hassoc] at this
      simpa using this

theorem reorders_toFront : Reorders n c toFront := by
  intro pre rest u height x h e x' h' e' _ hq hnd hT Q hup
  have herase : (pre ++ u :: rest).eraseIdx pre.length = pre ++ rest := by
    rw [List.eraseIdx_append_of_length_le (le_refl _)]; simp
  rw [toFront, herase]
  have hperm : (u :: (pre ++ rest)).Perm (pre ++ u :: rest) := List.perm_middle.symm
  refine ⟨hperm, ?_⟩
  have hu : u ∉ pre ++ rest := (List.nodup_cons.mp (hperm.nodup_iff.mpr hnd)).1
  refine List.pairwise_cons.mpr ⟨fun w hw hc => ?_, ?_⟩
  · rcases Q.adm w u (hq w (hperm.mem_iff.mp (by simp [hw]))) (hq u (by simp)) hc with ⟨g, _⟩ | ⟨_, g, _⟩
    · omega
    · exact g rfl
  · have hsub : (pre ++ rest).Sublist (pre ++ u :: rest) := (List.Sublist.refl pre).append (List.sublist_cons_self u rest)
    refine List.Pairwise.imp_of_mem (fun hv hw hvw hc => ?_) (hT.sublist hsub)
    rcases Q.adm _ _ (hq _ (hsub.mem hw)) (hq _ (hsub.mem hv)) hc with ⟨g, _⟩ | ⟨_, _, g⟩
    · omega
    · rcases g with g | g
      · subst g; exact hu hw
      · exact hvw g

/-- What `std::sort` promises of the call in line 86. -/
def Sorts (srt : List Nat → List Nat → List Nat) : Prop :=
  ∀ height que, (srt height que).Perm que ∧ (srt height que).Pairwise (fun v w => ¬ height.getD w 0 > height.getD v 0)

theorem reorders_sort {srt} (hs : Sorts srt) : Reorders n c (fun height que _ _ => srt height que) := by
  intro pre rest u height x h e x' h' e' hr hq hnd hT Q hup
  obtain ⟨h1, h2⟩ := hs height (pre ++ u :: rest)
  refine ⟨h1, List.Pairwise.imp_of_mem (fun {v w} hv hw hvw hc => hvw ?_) h2⟩
  have g1 := hr.rd (hq v (h1.mem_iff.mp hv))
  have g2 := hr.rd (hq w (h1.mem_iff.mp hw))
  rw [rd] at g1 g2
  rw [List.getD_eq_getElem?_getD, List.getD_eq_getElem?_getD, g1, g2]
  exact hc.2

end

end Altruct.PushRelabel
