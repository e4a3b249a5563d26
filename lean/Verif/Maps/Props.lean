/-
C27: `sqrt_map` and `lohi_map` are maps.
-/
import Verif.Maps.Model
import Mathlib.Tactic.Ring
import Mathlib.Tactic.Linarith

namespace Altruct.Maps

variable {α : Type}

/-! ### Specification: finite maps -/

/-- One operation on a finite map `m`; `reset_max` drops the keys above `lo`. -/
def specStep (lo : Nat) (m : Nat → Option α) : Op α → (Nat → Option α) × Out α
  | .set k v => (Function.update m k (some v), .unit)
  | .at k => (m, match m k with | some v => .val v | none => .thrown)
  | .el k => (m, match m k with | some v => .val v | none => .thrown)
  | .insert k v => match m k with
    | some _ => (m, .ins k false)
    | none => (Function.update m k (some v), .ins k true)
  | .erase k => (Function.update m k none, .num (if (m k).isSome then 1 else 0))
  | .count k => (m, .num (if (m k).isSome then 1 else 0))
  | .resetMax _ => (fun k => if k ≤ lo then m k else none, .unit)

/-- What a history on a finite map gives back. -/
def specRun (lo : Nat) : (Nat → Option α) → List (Op α) → List (Out α)
  | _, [] => []
  | m, op :: ops => (specStep lo m op).2 :: specRun lo (specStep lo m op).1 ops

/-- The keys a `sqrt_map` may be used with: the small ones and the quotients of `max_key`. -/
def Key (lo mx k : Nat) : Prop := k ≤ lo ∨ ∃ j, 1 ≤ j ∧ k = mx / j

/-- The key of an operation is allowed; unchecked access needs a key that is present. -/
def ValidOp (lo mx : Nat) (m : Nat → Option α) : Op α → Prop
  | .set k _ => Key lo mx k
  | .at k => Key lo mx k
  | .el k => Key lo mx k ∧ (m k).isSome
  | .insert k _ => Key lo mx k
  | .erase k => Key lo mx k
  | .count k => Key lo mx k
  | .resetMax _ => True

/-- The value of `max_key` after an operation. -/
def nextMax (mx : Nat) : Op α → Nat
  | .resetMax n => n
  | _ => mx

/-- All operations of a history are allowed. -/
def ValidRun (lo : Nat) : Nat → (Nat → Option α) → List (Op α) → Prop
  | _, _, [] => True
  | mx, m, op :: ops => ValidOp lo mx m op ∧ ValidRun lo (nextMax mx op) (specStep lo m op).1 ops

/-! ### Quotients -/

/-- A quotient is determined by its cofactor. -/
theorem div_div_key (lo mx k : Nat) (hk : lo < k) (hkey : Key lo mx k) : mx / (mx / k) = k := by
  rcases hkey with h1 | ⟨j, hj, rfl⟩
  · omega
  set k := mx / j with hkdef
  have hk0 : 0 < k := by omega
  have hkj : k * j ≤ mx := by rw [hkdef]; exact Nat.div_mul_le_self mx j
  have hjle : j ≤ mx / k := (Nat.le_div_iff_mul_le hk0).mpr (by rw [mul_comm]; exact hkj)
  have hj0 : 0 < mx / k := by omega
  set i := mx / k with hi
  have hik : i * k ≤ mx := by rw [hi]; exact Nat.div_mul_le_self mx k
  apply Nat.le_antisymm
  · rw [hkdef]; exact Nat.div_le_div_left hjle hj
  · exact (Nat.le_div_iff_mul_le hj0).mpr (by rw [mul_comm]; exact hik)

theorem slot_lt (lo mx k : Nat) (hlo : 1 ≤ lo) (hk : lo < k) : mx / k < mx / lo + 1 :=
  Nat.lt_succ_of_le (Nat.div_le_div_left (by omega) hlo)

/-- The invariant: counters are zero or one, and tell which keys are present. -/
structure Inv (s : SqrtMap α) (lo mx : Nat) (m : Nat → Option α) : Prop where
  lo_eq : s.maxLo = lo
  mx_eq : s.maxKey = mx
  ex : ∃ cl tl ch th, Rep s.cntLo (lo + 1) cl ∧ Rep s.tblLo (lo + 1) tl ∧ Rep s.cntHi (mx / lo + 1) ch ∧ Rep s.tblHi (mx / lo + 1) th ∧
    (∀ k, k ≤ lo → (cl k = if (m k).isSome then 1 else 0) ∧ ∀ v, m k = some v → tl k = v) ∧
    (∀ k, lo < k → Key lo mx k → (ch (mx / k) = if (m k).isSome then 1 else 0) ∧ ∀ v, m k = some v → th (mx / k) = v)

theorem slot_ne {lo mx k k' : Nat} (hk : lo < k) (hkey : Key lo mx k) (hk' : lo < k') (hkey' : Key lo mx k')
    (hne : k' ≠ k) : mx / k' ≠ mx / k := by
  intro he
  apply hne
  rw [← div_div_key lo mx k' hk' hkey', he, div_div_key lo mx k hk hkey]

theorem Inv.resetMax {s : SqrtMap α} {lo mx : Nat} {m : Nat → Option α} (dflt : α) (hI : Inv s lo mx m) (hlo : 1 ≤ lo) (n : Nat) :
    ∃ s', s.resetMax dflt n = some s' ∧ Inv s' lo n (fun k => if k ≤ lo then m k else none) := by
  obtain ⟨rfl, rfl, cl, tl, ch, th, r1, r2, r3, r4, h1, h2⟩ := hI
  refine ⟨{ s with
      maxKey := n,
      cntHi := List.replicate (n / s.maxLo + 1) 0,
      tblHi := (s.tblHi.take (n / s.maxLo + 1)) ++ List.replicate (n / s.maxLo + 1 - s.tblHi.length) dflt },
    by rw [SqrtMap.resetMax, if_neg (by omega)], rfl, rfl, cl, tl, fun _ => 0,
    fun i => if i < s.tblHi.length then th i else dflt, r1, r2, Rep.replicate _ _, ⟨?_, fun i hi => ?_⟩, fun k hk => ?_, fun k hk _ => ?_⟩
  · simp only [List.length_append, List.length_take, List.length_replicate]; omega
  · by_cases hi' : i < s.tblHi.length
    · rw [List.getElem?_append_left (by rw [List.length_take]; omega), List.getElem?_take, if_pos hi, if_pos hi']
      exact r4.get i (by rw [← r4.len]; exact hi')
    · rw [List.getElem?_append_right (by rw [List.length_take]; omega), if_neg hi', List.getElem?_replicate, if_pos]
      rw [List.length_take]; omega
  · simp only [if_pos hk]; exact h1 k hk
  · simp only [if_neg (show ¬ k ≤ s.maxLo by omega)]
    exact ⟨rfl, fun v hv => by simp at hv⟩

theorem Inv.init (dflt : α) (lo mx : Nat) (hlo : 1 ≤ lo) :
    ∃ s, SqrtMap.mk' dflt lo mx = some s ∧ Inv s lo mx (fun _ => none) := by
  refine ⟨⟨lo, mx, List.replicate (lo + 1) 0, List.replicate (lo + 1) dflt, List.replicate (mx / lo + 1) 0, List.replicate (mx / lo + 1) dflt⟩,
    by rw [SqrtMap.mk', SqrtMap.resetMax, if_neg (by change ¬ lo = 0; omega)]; simp, rfl, rfl, fun _ => 0, fun _ => dflt, fun _ => 0, fun _ => dflt,
    Rep.replicate _ _, Rep.replicate _ _, Rep.replicate _ _, Rep.replicate _ _, fun k _ => ⟨rfl, fun v hv => by simp at hv⟩, fun k _ _ => ⟨rfl, fun v hv => by simp at hv⟩⟩

/-- Writing a low slot. -/
theorem Inv.putLo {s : SqrtMap α} {lo mx : Nat} {m : Nat → Option α} (hI : Inv s lo mx m) {k : Nat} (hk : k ≤ lo) (v : α) :
    wr s.cntLo k 1 = some (s.cntLo.set k 1) ∧ wr s.tblLo k v = some (s.tblLo.set k v) ∧
    Inv { s with cntLo := s.cntLo.set k 1, tblLo := s.tblLo.set k v } lo mx (Function.update m k (some v)) := by
  obtain ⟨rfl, rfl, cl, tl, ch, th, r1, r2, r3, r4, h1, h2⟩ := hI
  refine ⟨r1.wr (by omega) _, r2.wr (by omega) _, rfl, rfl, _, _, ch, th, r1.set k 1, r2.set k v, r3, r4, fun j hj => ?_, fun j hj hkey => ?_⟩
  · by_cases hjk : j = k
    · subst hjk
      simp
    · rw [Function.update_of_ne hjk, Function.update_of_ne hjk, Function.update_of_ne hjk]
      exact h1 j hj
  · rw [Function.update_of_ne (by omega)]
    exact h2 j hj hkey

/-- Writing a high slot. -/
theorem Inv.putHi {s : SqrtMap α} {lo mx : Nat} {m : Nat → Option α} (hI : Inv s lo mx m) (hlo : 1 ≤ lo) {k : Nat}
    (hk : lo < k) (hkey : Key lo mx k) (v : α) :
    wr s.cntHi (mx / k) 1 = some (s.cntHi.set (mx / k) 1) ∧ wr s.tblHi (mx / k) v = some (s.tblHi.set (mx / k) v) ∧
    Inv { s with cntHi := s.cntHi.set (mx / k) 1, tblHi := s.tblHi.set (mx / k) v } lo mx (Function.update m k (some v)) := by
  obtain ⟨rfl, rfl, cl, tl, ch, th, r1, r2, r3, r4, h1, h2⟩ := hI
  have hsl := slot_lt s.maxLo s.maxKey k hlo hk
  refine ⟨r3.wr hsl _, r4.wr hsl _, rfl, rfl, cl, tl, _, _, r1, r2, r3.set _ 1, r4.set _ v, fun j hj => ?_, fun j hj hkey' => ?_⟩
  · rw [Function.update_of_ne (by omega)]
    exact h1 j hj
  · by_cases hjk : j = k
    · subst hjk
      simp
    · have := slot_ne hk hkey hj hkey' hjk
      rw [Function.update_of_ne hjk, Function.update_of_ne this, Function.update_of_ne this]
      exact h2 j hj hkey'

/-- One operation. -/
theorem Inv.step {s : SqrtMap α} {lo mx : Nat} {m : Nat → Option α} (dflt : α) (hI : Inv s lo mx m) (hlo : 1 ≤ lo)
    (op : Op α) (hv : ValidOp lo mx m op) :
    ∃ s', s.step dflt op = some (s', (specStep lo m op).2) ∧ Inv s' lo (nextMax mx op) (specStep lo m op).1 := by
  have hI' := hI
  obtain ⟨hl, hm, cl, tl, ch, th, r1, r2, r3, r4, h1, h2⟩ := hI'
  have hslot : ∀ k, lo < k → s.slot k = some (mx / k) := fun k hk => by rw [SqrtMap.slot, if_neg (by omega), hm]
  cases op with
  | set k v =>
    by_cases hk : k ≤ lo
    · obtain ⟨e1, e2, hn⟩ := hI.putLo hk v
      refine ⟨_, ?_, hn⟩
      rw [SqrtMap.step, SqrtMap.set, if_pos (by omega), e1]
      simp only [Option.bind_eq_bind, Option.bind_some]
      rw [e2]
      rfl
    · obtain ⟨e1, e2, hn⟩ := hI.putHi hlo (show lo < k by omega) hv v
      refine ⟨_, ?_, hn⟩
      rw [SqrtMap.step, SqrtMap.set, if_neg (by omega), hslot k (by omega)]
      simp only [Option.bind_eq_bind, Option.bind_some]
      rw [e1]
      simp only [Option.bind_some]
      rw [e2]
      rfl
  | «at» k =>
    refine ⟨s, ?_, hI⟩
    by_cases hk : k ≤ lo
    · obtain ⟨k1, k2⟩ := h1 k hk
      rw [SqrtMap.step, SqrtMap.at, if_pos (by omega), r1.get k (by omega), specStep]
      simp only
      cases hmk : m k with
      | none => rw [hmk] at k1; rw [if_pos (by rw [k1]; rfl)]; rfl
      | some v => rw [hmk] at k1; rw [if_neg (by rw [k1]; simp), r2.rd (by omega), k2 v hmk]; rfl
    · obtain ⟨k1, k2⟩ := h2 k (by omega) hv
      have hsl := slot_lt lo mx k hlo (by omega)
      rw [SqrtMap.step, SqrtMap.at, if_neg (by omega), hslot k (by omega), specStep]
      simp only [Option.bind_eq_bind, Option.bind_some]
      rw [r3.get _ hsl]
      simp only
      cases hmk : m k with
      | none => rw [hmk] at k1; rw [if_pos (by rw [k1]; rfl)]; rfl
      | some v => rw [hmk] at k1; rw [if_neg (by rw [k1]; simp), r4.rd hsl, k2 v hmk]; rfl
  | el k =>
    refine ⟨s, ?_, hI⟩
    obtain ⟨v, hmk⟩ := Option.isSome_iff_exists.mp hv.2
    by_cases hk : k ≤ lo
    · rw [SqrtMap.step, SqrtMap.el, if_pos (by omega), r2.rd (by omega), (h1 k hk).2 v hmk, specStep, hmk]
      rfl
    · have hsl := slot_lt lo mx k hlo (by omega)
      rw [SqrtMap.step, SqrtMap.el, if_neg (by omega), hslot k (by omega), specStep, hmk]
      simp only [Option.bind_eq_bind, Option.bind_some]
      rw [r4.rd hsl, (h2 k (by omega) hv.1).2 v hmk]
      rfl
  | insert k v =>
    by_cases hk : k ≤ lo
    · obtain ⟨k1, k2⟩ := h1 k hk
      cases hmk : m k with
      | some w =>
        rw [hmk] at k1
        refine ⟨s, ?_, by rw [specStep, hmk]; exact hI⟩
        rw [SqrtMap.step, SqrtMap.insert, if_pos (by omega), r1.rd (by omega), specStep, hmk]
        simp only [Option.bind_eq_bind, Option.bind_some]
        rw [if_pos (by rw [k1]; simp)]
        rfl
      | none =>
        rw [hmk] at k1
        obtain ⟨e1, e2, hn⟩ := hI.putLo hk v
        refine ⟨_, ?_, by rw [specStep, hmk]; exact hn⟩
        rw [SqrtMap.step, SqrtMap.insert, if_pos (by omega), r1.rd (by omega), specStep, hmk]
        simp only [Option.bind_eq_bind, Option.bind_some]
        rw [if_neg (by rw [k1]; simp), e2]
        simp only [Option.bind_some]
        rw [e1]
        rfl
    · obtain ⟨k1, k2⟩ := h2 k (by omega) hv
      have hsl := slot_lt lo mx k hlo (by omega)
      cases hmk : m k with
      | some w =>
        rw [hmk] at k1
        refine ⟨s, ?_, by rw [specStep, hmk]; exact hI⟩
        rw [SqrtMap.step, SqrtMap.insert, if_neg (by omega), hslot k (by omega), specStep, hmk]
        simp only [Option.bind_eq_bind, Option.bind_some]
        rw [r3.rd hsl]
        simp only [Option.bind_some]
        rw [if_pos (by rw [k1]; simp)]
        rfl
      | none =>
        rw [hmk] at k1
        obtain ⟨e1, e2, hn⟩ := hI.putHi hlo (show lo < k by omega) hv v
        refine ⟨_, ?_, by rw [specStep, hmk]; exact hn⟩
        rw [SqrtMap.step, SqrtMap.insert, if_neg (by omega), hslot k (by omega), specStep, hmk]
        simp only [Option.bind_eq_bind, Option.bind_some]
        rw [r3.rd hsl]
        simp only [Option.bind_some]
        rw [if_neg (by rw [k1]; simp), e2]
        simp only [Option.bind_some]
        rw [e1]
        rfl
  | erase k =>
    by_cases hk : k ≤ lo
    · obtain ⟨k1, k2⟩ := h1 k hk
      refine ⟨{ s with cntLo := s.cntLo.set k 0 }, ?_, hl, hm, _, tl, ch, th, r1.set k 0, r2, r3, r4, fun j hj => ?_, fun j hj hkey => ?_⟩
      · rw [SqrtMap.step, SqrtMap.erase, if_pos (by omega), r1.rd (by omega)]
        simp only [Option.bind_eq_bind, Option.bind_some]
        rw [r1.wr (by omega), k1]
        rfl
      · change _ = (if (Function.update m k none j).isSome then 1 else 0) ∧ ∀ v, Function.update m k none j = some v → _
        by_cases hjk : j = k
        · subst hjk; simp
        · rw [Function.update_of_ne hjk, Function.update_of_ne hjk]
          exact h1 j hj
      · change _ = (if (Function.update m k none j).isSome then 1 else 0) ∧ ∀ v, Function.update m k none j = some v → _
        rw [Function.update_of_ne (show j ≠ k by omega)]
        exact h2 j hj hkey
    · obtain ⟨k1, k2⟩ := h2 k (by omega) hv
      have hsl := slot_lt lo mx k hlo (by omega)
      refine ⟨{ s with cntHi := s.cntHi.set (mx / k) 0 }, ?_, hl, hm, cl, tl, _, th, r1, r2, r3.set _ 0, r4, fun j hj => ?_, fun j hj hkey => ?_⟩
      · rw [SqrtMap.step, SqrtMap.erase, if_neg (by omega), hslot k (by omega)]
        simp only [Option.bind_eq_bind, Option.bind_some]
        rw [r3.rd hsl]
        simp only [Option.bind_some]
        rw [r3.wr hsl, k1]
        rfl
      · change _ = (if (Function.update m k none j).isSome then 1 else 0) ∧ ∀ v, Function.update m k none j = some v → _
        rw [Function.update_of_ne (show j ≠ k by omega)]
        exact h1 j hj
      · change _ = (if (Function.update m k none j).isSome then 1 else 0) ∧ ∀ v, Function.update m k none j = some v → _
        by_cases hjk : j = k
        · subst hjk; simp [nextMax]
        · have := slot_ne (show lo < k by omega) hv hj hkey hjk
          rw [Function.update_of_ne hjk]
          change Function.update ch (mx / k) 0 (mx / j) = _ ∧ _
          rw [Function.update_of_ne this]
          exact h2 j hj hkey
  | count k =>
    refine ⟨s, ?_, hI⟩
    by_cases hk : k ≤ lo
    · rw [SqrtMap.step, SqrtMap.count, if_pos (by omega), r1.rd (by omega), (h1 k hk).1, specStep]
      rfl
    · have hsl := slot_lt lo mx k hlo (by omega)
      rw [SqrtMap.step, SqrtMap.count, if_neg (by omega), hslot k (by omega), specStep]
      simp only [Option.bind_eq_bind, Option.bind_some]
      rw [r3.rd hsl, (h2 k (by omega) hv).1]
      rfl
  | resetMax n =>
    obtain ⟨s', e, hn⟩ := hI.resetMax dflt hlo n
    exact ⟨s', by rw [SqrtMap.step, e]; rfl, hn⟩

theorem Inv.run (dflt : α) (lo : Nat) (hlo : 1 ≤ lo) : ∀ (ops : List (Op α)) (s : SqrtMap α) (mx : Nat) (m : Nat → Option α), Inv s lo mx m →
    ValidRun lo mx m ops → ∃ s', s.run dflt ops = some (s', specRun lo m ops) := by
  intro ops
  induction ops with
  | nil => intro s mx m _ _; exact ⟨s, rfl⟩
  | cons op ops ih =>
    intro s mx m hI ⟨h1, h2⟩
    obtain ⟨s1, e1, hI1⟩ := hI.step dflt hlo op h1
    obtain ⟨s2, e2⟩ := ih s1 _ _ hI1 h2
    refine ⟨s2, ?_⟩
    rw [SqrtMap.run, e1]
    simp only [Option.bind_eq_bind, Option.bind_some]
    rw [e2]
    rfl

/-- **C27**: over any history with keys that are at most `max_lo_key` or quotients of the current
`max_key`, a `sqrt_map` gives back what a finite map does. -/
theorem C27_sqrt_map (dflt : α) (lo mx : Nat) (hlo : 1 ≤ lo) (ops : List (Op α))
    (hv : ValidRun lo mx (fun _ => none) ops) :
    ∃ s s', SqrtMap.mk' dflt lo mx = some s ∧ s.run dflt ops = some (s', specRun lo (fun _ => none) ops) := by
  obtain ⟨s, e, hI⟩ := Inv.init dflt lo mx hlo
  obtain ⟨s', e'⟩ := Inv.run dflt lo hlo ops s mx _ hI hv
  exact ⟨s, s', e, e'⟩

example : ValidRun (α := Int) 3 15 (fun _ => none) [.set 5 10, .set 7 20, .insert 3 30, .at 5, .erase 7, .count 7, .at 7, .el 3, .resetMax 10, .at 5, .at 3] := by
  simp only [ValidRun, ValidOp, Key, nextMax, specStep]
  refine ⟨Or.inr ⟨3, by omega, by omega⟩, Or.inr ⟨2, by omega, by omega⟩, Or.inl (by omega), Or.inr ⟨3, by omega, by omega⟩, Or.inr ⟨2, by omega, by omega⟩,
    Or.inr ⟨2, by omega, by omega⟩, Or.inr ⟨2, by omega, by omega⟩, ⟨Or.inl (by omega), by simp [Function.update]⟩, trivial, Or.inr ⟨2, by omega, by omega⟩, Or.inl (by omega), trivial⟩

/-- A key that is neither small nor a quotient of `max_key` can share a slot with another key. -/
example : ((SqrtMap.mk' (0 : Int) 4 30).bind fun s => s.run 0 [.set 10 1, .set 9 2, .el 10]).map Prod.snd = some [.unit, .unit, .val 2] := by decide +kernel

/-- `m[k]` of a key that was erased does not create a default value: the old value is still there. -/
theorem C27_stale : ((SqrtMap.mk' (0 : Int) 3 15).bind fun s => s.run 0 [.set 5 10, .erase 5, .el 5]).map Prod.snd
    = some [.unit, .num 1, .val 10] := by decide +kernel

/-! ### `lohi_map` -/

/-- The operations a `lohi_map` has; `m[k]` is read, and `m.at(k)` used with a small key, only when `k` is present. -/
def LohiOp (lo : Nat) (m : Nat → Option α) : Op α → Prop
  | .at k => k ≤ lo → (m k).isSome
  | .el k => (m k).isSome
  | .resetMax _ => False
  | _ => True

/-- All operations of a history are allowed. -/
def LohiRun (lo : Nat) : (Nat → Option α) → List (Op α) → Prop
  | _, [] => True
  | m, op :: ops => LohiOp lo m op ∧ LohiRun lo (specStep lo m op).1 ops

/-- The invariant. -/
structure LInv (s : LohiMap α) (lo : Nat) (m : Nat → Option α) : Prop where
  lo_eq : s.maxLo = lo
  hi_eq : ∀ k, lo < k → s.tblHi k = m k
  ex : ∃ cl tl, Rep s.cntLo (lo + 1) cl ∧ Rep s.tblLo (lo + 1) tl ∧
    ∀ k, k ≤ lo → (cl k = if (m k).isSome then 1 else 0) ∧ ∀ v, m k = some v → tl k = v

theorem LInv.putLo {s : LohiMap α} {lo : Nat} {m : Nat → Option α} (hI : LInv s lo m) {k : Nat} (hk : k ≤ lo) (v : α) :
    wr s.cntLo k 1 = some (s.cntLo.set k 1) ∧ wr s.tblLo k v = some (s.tblLo.set k v) ∧
    LInv { s with cntLo := s.cntLo.set k 1, tblLo := s.tblLo.set k v } lo (Function.update m k (some v)) := by
  obtain ⟨rfl, h2, cl, tl, r1, r2, h1⟩ := hI
  refine ⟨r1.wr (by omega) _, r2.wr (by omega) _, rfl, fun j hj => ?_, _, _, r1.set k 1, r2.set k v, fun j hj => ?_⟩
  · rw [Function.update_of_ne (show j ≠ k by omega)]; exact h2 j hj
  · by_cases hjk : j = k
    · subst hjk; simp
    · rw [Function.update_of_ne hjk, Function.update_of_ne hjk, Function.update_of_ne hjk]
      exact h1 j hj

theorem LInv.putHi {s : LohiMap α} {lo : Nat} {m : Nat → Option α} (hI : LInv s lo m) {k : Nat} (hk : lo < k) (v : Option α) :
    LInv { s with tblHi := Function.update s.tblHi k v } lo (Function.update m k v) := by
  obtain ⟨rfl, h2, cl, tl, r1, r2, h1⟩ := hI
  refine ⟨rfl, fun j hj => ?_, cl, tl, r1, r2, fun j hj => ?_⟩
  · by_cases hjk : j = k
    · subst hjk; simp
    · change Function.update _ _ _ _ = _
      rw [Function.update_of_ne hjk, Function.update_of_ne hjk]; exact h2 j hj
  · rw [Function.update_of_ne (show j ≠ k by omega)]; exact h1 j hj

theorem LInv.step {s : LohiMap α} {lo : Nat} {m : Nat → Option α} (hI : LInv s lo m) (op : Op α) (hv : LohiOp lo m op) :
    ∃ s', s.step op = some (s', (specStep lo m op).2) ∧ LInv s' lo (specStep lo m op).1 := by
  have hI' := hI
  obtain ⟨hl, h2, cl, tl, r1, r2, h1⟩ := hI'
  cases op with
  | set k v =>
    by_cases hk : k ≤ lo
    · obtain ⟨e1, e2, hn⟩ := hI.putLo hk v
      refine ⟨_, ?_, hn⟩
      rw [LohiMap.step, LohiMap.set, if_pos (by omega), e1]
      simp only [Option.bind_eq_bind, Option.bind_some]
      rw [e2]
      rfl
    · refine ⟨_, ?_, hI.putHi (show lo < k by omega) (some v)⟩
      rw [LohiMap.step, LohiMap.set, if_neg (by omega)]
      rfl
  | «at» k =>
    refine ⟨s, ?_, hI⟩
    by_cases hk : k ≤ lo
    · obtain ⟨v, hmk⟩ := Option.isSome_iff_exists.mp (hv hk)
      rw [LohiMap.step, LohiMap.at, if_pos (by omega), r2.get k (by omega), specStep, hmk, (h1 k hk).2 v hmk]
    · rw [LohiMap.step, LohiMap.at, if_neg (by omega), h2 k (by omega), specStep]
      cases m k <;> rfl
  | el k =>
    obtain ⟨v, hmk⟩ := Option.isSome_iff_exists.mp hv
    by_cases hk : k ≤ lo
    · refine ⟨{ s with cntLo := s.cntLo.set k 1 }, ?_, hl, h2, _, tl, r1.set k 1, r2, fun j hj => ?_⟩
      · rw [LohiMap.step, if_pos (by omega), r1.wr (by omega), specStep, hmk]
        simp only [Option.bind_eq_bind, Option.bind_some]
        rw [r2.rd (by omega), (h1 k hk).2 v hmk]
        rfl
      · change _ = (if (m j).isSome then 1 else 0) ∧ ∀ v, m j = some v → _
        by_cases hjk : j = k
        · subst hjk
          refine ⟨by rw [hmk]; simp, (h1 j hj).2⟩
        · rw [Function.update_of_ne hjk]
          exact h1 j hj
    · refine ⟨s, ?_, hI⟩
      rw [LohiMap.step, if_neg (by omega), h2 k (by omega), specStep, hmk]
      rfl
  | insert k v =>
    by_cases hk : k ≤ lo
    · obtain ⟨k1, k2⟩ := h1 k hk
      cases hmk : m k with
      | some w =>
        rw [hmk] at k1
        refine ⟨s, ?_, by rw [specStep, hmk]; exact hI⟩
        rw [LohiMap.step, LohiMap.insert, if_pos (by omega), r1.rd (by omega), specStep, hmk]
        simp only [Option.bind_eq_bind, Option.bind_some]
        rw [if_pos (by rw [k1]; simp)]
        rfl
      | none =>
        rw [hmk] at k1
        obtain ⟨e1, e2, hn⟩ := hI.putLo hk v
        refine ⟨_, ?_, by rw [specStep, hmk]; exact hn⟩
        rw [LohiMap.step, LohiMap.insert, if_pos (by omega), r1.rd (by omega), specStep, hmk]
        simp only [Option.bind_eq_bind, Option.bind_some]
        rw [if_neg (by rw [k1]; simp), e2]
        simp only [Option.bind_some]
        rw [e1]
        rfl
    · cases hmk : m k with
      | some w =>
        refine ⟨s, ?_, by rw [specStep, hmk]; exact hI⟩
        rw [LohiMap.step, LohiMap.insert, if_neg (by omega), h2 k (by omega), hmk, specStep, hmk]
        rfl
      | none =>
        refine ⟨_, ?_, by rw [specStep, hmk]; exact hI.putHi (show lo < k by omega) (some v)⟩
        rw [LohiMap.step, LohiMap.insert, if_neg (by omega), h2 k (by omega), hmk, specStep, hmk]
        rfl
  | erase k =>
    by_cases hk : k ≤ lo
    · refine ⟨{ s with cntLo := s.cntLo.set k 0 }, ?_, hl, fun j hj => ?_, _, tl, r1.set k 0, r2, fun j hj => ?_⟩
      · rw [LohiMap.step, LohiMap.erase, if_pos (by omega), r1.rd (by omega)]
        simp only [Option.bind_eq_bind, Option.bind_some]
        rw [r1.wr (by omega), (h1 k hk).1]
        rfl
      · change _ = Function.update m k none j
        rw [Function.update_of_ne (show j ≠ k by omega)]; exact h2 j hj
      · change _ = (if (Function.update m k none j).isSome then 1 else 0) ∧ ∀ v, Function.update m k none j = some v → _
        by_cases hjk : j = k
        · subst hjk; simp
        · rw [Function.update_of_ne hjk, Function.update_of_ne hjk]
          exact h1 j hj
    · refine ⟨_, ?_, hI.putHi (show lo < k by omega) none⟩
      rw [LohiMap.step, LohiMap.erase, if_neg (by omega), h2 k (by omega)]
      rfl
  | count k =>
    refine ⟨s, ?_, hI⟩
    by_cases hk : k ≤ lo
    · rw [LohiMap.step, LohiMap.count, if_pos (by omega), r1.rd (by omega), (h1 k hk).1]
      rfl
    · rw [LohiMap.step, LohiMap.count, if_neg (by omega), h2 k (by omega)]
      rfl
  | resetMax n => exact hv.elim

/-- **C27**: over any history, a `lohi_map` gives back what a finite map does, provided `m[k]` is read, and `at(k)`
used with a small key, only when `k` is present. -/
theorem C27_lohi_map (dflt : α) (lo : Nat) (ops : List (Op α)) (hv : LohiRun lo (fun _ => none) ops) :
    ∃ s', (LohiMap.mk' dflt lo).run ops = some (s', specRun lo (fun _ => none) ops) := by
  have hI : LInv (LohiMap.mk' dflt lo) lo (fun _ => none) :=
    ⟨rfl, fun _ _ => rfl, _, _, Rep.replicate _ _, Rep.replicate _ _, fun k _ => ⟨rfl, fun v hv => by simp at hv⟩⟩
  generalize LohiMap.mk' dflt lo = s at hI
  generalize (fun _ => none : Nat → Option α) = m at hI hv
  induction ops generalizing s m with
  | nil => exact ⟨s, rfl⟩
  | cons op ops ih =>
    obtain ⟨s1, e1, hI1⟩ := hI.step op hv.1
    obtain ⟨s2, e2⟩ := ih s1 _ hI1 hv.2
    refine ⟨s2, ?_⟩
    rw [LohiMap.run, e1]
    simp only [Option.bind_eq_bind, Option.bind_some]
    rw [e2]
    rfl

example : LohiRun (α := Int) 3 (fun _ => none) [.set 2 5, .set 100 6, .insert 100 7, .at 100, .erase 2, .count 2, .at 50, .insert 2 8, .el 2] := by
  simp [LohiRun, LohiOp, specStep]

/-- `at` of a small key that is absent does not throw: it gives the default value. -/
theorem C27_lohi_at_absent : ((LohiMap.mk' (0 : Int) 3).run [.at 2]).map Prod.snd = some [.val 0]
    ∧ specRun (α := Int) 3 (fun _ => none) [.at 2] = [.thrown] := by decide +kernel

end Altruct.Maps
