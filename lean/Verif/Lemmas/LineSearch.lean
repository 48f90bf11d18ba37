import Verif.Spec.LineSearch
import Mathlib.Algebra.BigOperators.Ring.Finset
import Mathlib.Tactic.Linarith
import Mathlib.Tactic.Ring
import Mathlib.Tactic.SplitIfs
import Mathlib.Tactic.LinearCombination

/-!
# Lemmas on the line search
-/

namespace Verif.LineSearch

open Linear Finset Spec

variable {R : Type} [Field R] [LinearOrder R]

/-- `t` is not below the bound. -/
def GeL (b : Ext R) (t : R) : Prop :=
  match b with
  | .ninf => True
  | .fin l => l ≤ t
  | _ => False

/-- `t` is not above the bound. -/
def LeU (b : Ext R) (t : R) : Prop :=
  match b with
  | .pinf => True
  | .fin u => t ≤ u
  | _ => False

theorem contains_iff (o : Interval R) (t : R) : Contains o t ↔ GeL o.lower t ∧ LeU o.upper t :=
  Iff.rfl

theorem geL_max {a b : Ext R} (ha : a ≠ .nan) (hb : b ≠ .nan) (t : R) :
    GeL (if a.lt b then b else a) t ↔ GeL a t ∧ GeL b t := by
  cases a <;> cases b <;> simp_all [Ext.lt, GeL]
  rename_i x y
  split_ifs with h
  · exact ⟨fun h' => ⟨h.le.trans h', h'⟩, fun h' => h'.2⟩
  · exact ⟨fun h' => ⟨h', (not_lt.1 h).trans h'⟩, fun h' => h'.1⟩

theorem leU_min {a b : Ext R} (ha : a ≠ .nan) (hb : b ≠ .nan) (t : R) :
    LeU (if b.lt a then b else a) t ↔ LeU a t ∧ LeU b t := by
  cases a <;> cases b <;> simp_all [Ext.lt, LeU]
  rename_i x y
  split_ifs with h
  · exact ⟨fun h' => ⟨h'.trans h.le, h'⟩, fun h' => h'.2⟩
  · exact ⟨fun h' => ⟨h', h'.trans (not_lt.1 h)⟩, fun h' => h'.1⟩

theorem max_ne_nan {a b : Ext R} (ha : a ≠ .nan) (hb : b ≠ .nan) (c : Bool) :
    (if c then b else a) ≠ .nan := by
  cases c <;> simpa

theorem max_ne_ninf {a b : Ext R} (ha : a ≠ .ninf) : (if a.lt b then b else a) ≠ .ninf := by
  cases a <;> cases b <;> simp_all [Ext.lt]
  split_ifs <;> simp

theorem min_ne_pinf {a b : Ext R} (ha : a ≠ .pinf) : (if b.lt a then b else a) ≠ .pinf := by
  cases a <;> cases b <;> simp_all [Ext.lt]
  split_ifs <;> simp

variable [IsStrictOrderedRing R]

/-- Bounds of a component without NaN. -/
theorem component_spec {dmax d0 delta : R} (hd : 0 ≤ dmax) (hb : delta = 0 → |d0| ≠ dmax) :
    let b := component dmax d0 delta
    b.lower ≠ .nan ∧ b.upper ≠ .nan ∧
    (∀ t, (GeL b.lower t ∧ LeU b.upper t) ↔ |d0 + t * delta| ≤ dmax) ∧
    (delta ≠ 0 → b.lower ≠ .ninf ∧ b.upper ≠ .pinf) := by
  rcases lt_trichotomy delta 0 with h | h | h
  · have e : component dmax d0 delta =
        ⟨.fin ((dmax - d0) / delta), .fin ((-dmax - d0) / delta)⟩ := by
      unfold component ediv
      simp only [if_neg h.ne, Ext.lt]
      split_ifs with h'
      · rfl
      · have h1 : (-dmax - d0) / delta ≤ (dmax - d0) / delta := by simpa using h'
        have h2 : (dmax - d0) / delta ≤ (-dmax - d0) / delta :=
          (div_le_div_right_of_neg h).2 (by linarith)
        rw [le_antisymm h1 h2]
    rw [e]
    refine ⟨by simp, by simp, fun t => ?_, fun _ => by simp⟩
    simp only [GeL, LeU]
    rw [div_le_iff_of_neg h, le_div_iff_of_neg h, abs_le]
    constructor <;> rintro ⟨h1, h2⟩ <;> constructor <;> linarith
  · subst h
    have hne := hb rfl
    unfold component ediv
    simp only [if_true, mul_zero, add_zero]
    have h1 : dmax - d0 ≠ 0 := by
      intro h
      apply hne
      have : d0 = dmax := by linarith
      rw [this, abs_of_nonneg hd]
    have h2 : -dmax - d0 ≠ 0 := by
      intro h
      apply hne
      have : d0 = -dmax := by linarith
      rw [this, abs_neg, abs_of_nonneg hd]
    simp only [if_neg h1, if_neg h2]
    by_cases h3 : 0 < dmax - d0 <;> by_cases h4 : 0 < -dmax - d0
    · simp only [if_pos h3, if_pos h4, Ext.lt, GeL, LeU]
      refine ⟨by simp, by simp, fun t => ?_, fun h => absurd rfl h⟩
      simp only [Bool.false_eq_true, if_false, false_and, false_iff]
      rw [abs_le]
      intro h
      linarith
    · simp only [if_pos h3, if_neg h4, Ext.lt, GeL, LeU]
      refine ⟨by simp, by simp, fun t => ?_, fun h => absurd rfl h⟩
      simp only [Bool.false_eq_true, if_false, true_and, true_iff]
      rw [abs_le]
      constructor <;> linarith
    · linarith
    · simp only [if_neg h3, if_neg h4, Ext.lt, GeL, LeU]
      refine ⟨by simp, by simp, fun t => ?_, fun h => absurd rfl h⟩
      simp only [Bool.false_eq_true, if_false, and_false, false_iff]
      rw [abs_le]
      intro h
      have : dmax - d0 < 0 := lt_of_le_of_ne (not_lt.1 h3) h1
      linarith
  · have e : component dmax d0 delta =
        ⟨.fin ((-dmax - d0) / delta), .fin ((dmax - d0) / delta)⟩ := by
      unfold component ediv
      simp only [if_neg h.ne', Ext.lt]
      rw [if_neg]
      simp only [decide_eq_true_eq, not_lt]
      exact div_le_div_of_nonneg_right (by linarith) h.le
    rw [e]
    refine ⟨by simp, by simp, fun t => ?_, fun _ => by simp⟩
    simp only [GeL, LeU]
    rw [div_le_iff₀ h, le_div_iff₀ h, abs_le]
    constructor <;> rintro ⟨h1, h2⟩ <;> constructor <;> linarith

/-- The loop intersects the intervals of the components. -/
theorem findLoop_spec {dmax : R} {d0 delta : Nat → R} (hd : 0 ≤ dmax) (out : Interval R) (n : Nat)
    (hb : ∀ i ≤ n, delta i = 0 → |d0 i| ≠ dmax) :
    let b := findLoop dmax d0 delta out (n + 1)
    b.lower ≠ .nan ∧ b.upper ≠ .nan ∧
    (∀ t, (GeL b.lower t ∧ LeU b.upper t) ↔ ∀ i ≤ n, |d0 i + t * delta i| ≤ dmax) ∧
    ((∃ i ≤ n, delta i ≠ 0) → b.lower ≠ .ninf ∧ b.upper ≠ .pinf) := by
  induction n with
  | zero =>
    have h := component_spec hd (hb 0 le_rfl)
    simp only [findLoop, tighten, beq_self_eq_true, Bool.or_true, if_true]
    obtain ⟨h1, h2, h3, h4⟩ := h
    refine ⟨h1, h2, fun t => (h3 t).trans ?_, fun ⟨i, hi, h⟩ => h4 (by rwa [Nat.le_zero.1 hi] at h)⟩
    constructor
    · intro h i hi
      rwa [Nat.le_zero.1 hi]
    · intro h
      exact h 0 le_rfl
  | succ n ih =>
    obtain ⟨h1, h2, h3, h4⟩ := component_spec hd (hb (n + 1) le_rfl)
    obtain ⟨g1, g2, g3, g4⟩ := ih fun i hi => hb i (by omega)
    rw [findLoop]
    generalize component dmax (d0 (n + 1)) (delta (n + 1)) = b at *
    generalize findLoop dmax d0 delta out (n + 1) = a at *
    have e : (n + 1 == 0) = false := by simp
    simp only [tighten, e, Bool.or_false]
    refine ⟨max_ne_nan g1 h1 _, max_ne_nan g2 h2 _, fun t => ?_, ?_⟩
    · rw [geL_max g1 h1, leU_min g2 h2]
      constructor
      · rintro ⟨⟨a1, a2⟩, a3, a4⟩ i hi
        rcases Nat.lt_or_ge i (n + 1) with hlt | hge
        · exact (g3 t).1 ⟨a1, a3⟩ i (by omega)
        · rw [show i = n + 1 by omega]
          exact (h3 t).1 ⟨a2, a4⟩
      · intro h
        have u := (g3 t).2 fun i hi => h i (by omega)
        have v := (h3 t).2 (h (n + 1) le_rfl)
        exact ⟨⟨u.1, v.1⟩, u.2, v.2⟩
    · rintro ⟨i, hi, hne⟩
      have key : (a.lower ≠ .ninf ∧ a.upper ≠ .pinf) ∨ (b.lower ≠ .ninf ∧ b.upper ≠ .pinf) := by
        rcases Nat.lt_or_ge i (n + 1) with hlt | hge
        · exact .inl (g4 ⟨i, by omega, hne⟩)
        · rw [show i = n + 1 by omega] at hne
          exact .inr (h4 hne)
      obtain ⟨al, au⟩ := a
      obtain ⟨bl, bu⟩ := b
      simp only at *
      constructor
      · clear g2 h2 g3 h3
        cases al <;> cases bl <;> simp_all [Ext.lt]
        split_ifs <;> simp
      · clear g1 h1 g3 h3
        cases au <;> cases bu <;> simp_all [Ext.lt]
        split_ifs <;> simp

theorem success_iff {b : Interval R} (h1 : b.lower ≠ .nan) (h2 : b.upper ≠ .nan)
    (h3 : b.lower ≠ .ninf) (h4 : b.upper ≠ .pinf) :
    b.success = true ↔ ∃ t, GeL b.lower t ∧ LeU b.upper t := by
  obtain ⟨l, u⟩ := b
  cases l <;> cases u <;> simp_all [Interval.success, Ext.lt, GeL, LeU]
  rename_i x y
  exact ⟨fun h => ⟨x, le_rfl, h⟩, fun ⟨t, h5, h6⟩ => h5.trans h6⟩

/-- The code's directions are the direction of the specification. -/
theorem dirAt_eq (p : Problem R) {ny : Nat} (hy : p.o.m ≤ ny) :
    dirAt p.o p.W p.c0 ny p.y0 = .ok (dir p 0) ∧ dirAt p.o p.W p.c1 ny p.y1 = .ok (dir p 1) := by
  unfold dirAt negativeSlack
  rw [if_neg (by omega), if_neg (by omega)]
  simp only [Outcome.bind_ok]
  constructor <;> congr 1 <;> funext i <;> unfold dir
  · simp only [zero_mul, add_zero]; ring
  · simp only [one_mul, add_sub_cancel]; ring

theorem dir_line (p : Problem R) (t : R) (i : Nat) :
    dir p t i = dir p 0 i + t * (dir p 1 i - dir p 0 i) := by
  unfold dir
  simp only [zero_mul, add_zero, one_mul, add_sub_cancel]
  have : ∑ j ∈ range p.o.m, p.o.A i j * (p.y0 j + t * (p.y1 j - p.y0 j)) =
      (∑ j ∈ range p.o.m, p.o.A i j * p.y0 j) + t * ((∑ j ∈ range p.o.m, p.o.A i j * p.y1 j) -
        ∑ j ∈ range p.o.m, p.o.A i j * p.y0 j) := by
    rw [← sum_sub_distrib, mul_sum, ← sum_add_distrib]
    refine sum_congr rfl fun j _ => ?_
    ring
  rw [this]
  ring

/-! ### The program -/

/-- The two bounds of the program as numbers. -/
theorem searchLoop_none {l : List (Bool × Interval R)} {out : Interval R} :
    searchLoop l out = none ↔ ∃ t ∈ l, t.1 = true := by
  induction l generalizing out with
  | nil => simp [searchLoop]
  | cons a l ih =>
    obtain ⟨f, i⟩ := a
    cases f
    · simp [searchLoop, ih]
    · simp [searchLoop]

theorem searchLoop_some {l : List (Bool × Interval R)} (hn : ∀ t ∈ l, t.2.lower ≠ .nan ∧
    t.2.upper ≠ .nan) : ∀ {out r : Interval R}, out.lower ≠ .nan → out.upper ≠ .nan →
    searchLoop l out = some r →
    r.lower ≠ .nan ∧ r.upper ≠ .nan ∧
    (∀ t, GeL r.lower t ↔ GeL out.lower t ∧ ∀ b ∈ l, GeL b.2.lower t) ∧
    (∀ t, LeU r.upper t ↔ LeU out.upper t ∧ ∀ b ∈ l, LeU b.2.upper t) ∧
    (out.lower ≠ .ninf → r.lower ≠ .ninf) ∧ (out.upper ≠ .pinf → r.upper ≠ .pinf) := by
  induction l with
  | nil =>
    intro out r h1 h2 h
    simp only [searchLoop, Option.some.injEq] at h
    subst h
    simp [h1, h2]
  | cons a l ih =>
    intro out r h1 h2 h
    obtain ⟨f, i⟩ := a
    cases f
    · simp only [searchLoop, Bool.false_eq_true, if_false] at h
      obtain ⟨g1, g2⟩ := hn _ List.mem_cons_self
      simp only at g1 g2
      obtain ⟨a1, a2, a3, a4, a5, a6⟩ := ih (fun t ht => hn t (List.mem_cons_of_mem _ ht))
        (max_ne_nan h1 g1 _) (max_ne_nan h2 g2 _) h
      refine ⟨a1, a2, fun t => ?_, fun t => ?_, fun h => a5 (max_ne_ninf h),
        fun h => a6 (min_ne_pinf h)⟩
      · rw [a3, geL_max h1 g1, List.forall_mem_cons, and_assoc]
      · rw [a4, leU_min h2 g2, List.forall_mem_cons, and_assoc]
    · simp [searchLoop] at h

end Verif.LineSearch
