import Verif.Lemmas.LineSearch
import Mathlib.Algebra.Order.Ring.Rat
import Mathlib.Order.Bounds.Basic
import Mathlib.Tactic.NormNum

/-!
# Properties of the line search (C33)
-/

namespace Verif.LineSearch

open Linear Finset Spec

variable {R : Type} [Field R] [LinearOrder R] [IsStrictOrderedRing R]

/-- The line search of a linear inequality succeeds exactly when some parameter keeps all components
of the direction within the bound, and the interval it reports is the set of these parameters. -/
theorem C33_interval {dmax : R} (hd : 0 ≤ dmax) (big : R) (p : Problem R) (hr : Regular dmax p) :
    ∃ f b, search big dmax p = .ok (f, b) ∧ (f = false ↔ ∃ t, Admissible dmax p t) ∧
      (∀ t, Admissible dmax p t ↔ Contains b t) ∧ b.lower ≠ .nan ∧ b.upper ≠ .nan := by
  obtain ⟨⟨i0, hi0, hne⟩, hb⟩ := hr
  obtain ⟨n, hn⟩ : ∃ n, p.o.n = n + 1 := ⟨p.o.n - 1, by omega⟩
  obtain ⟨h1, h2, h3, h4⟩ := findLoop_spec (d0 := dir p 0)
    (delta := fun i => dir p 1 i - dir p 0 i) hd (Interval.default big) n
    (fun i hi h => hb i (by omega) (sub_eq_zero.1 h).symm)
  obtain ⟨h5, h6⟩ := h4 ⟨i0, by omega, fun h => hne (sub_eq_zero.1 h).symm⟩
  obtain ⟨e0, e1⟩ := dirAt_eq p (le_refl p.o.m)
  have h7 : ∀ t, Admissible dmax p t ↔ Contains
      (findLoop dmax (dir p 0) (fun i => dir p 1 i - dir p 0 i) (Interval.default big) (n + 1))
        t := by
    intro t
    rw [contains_iff, h3]
    unfold Admissible
    simp only [hn, Nat.lt_succ_iff]
    constructor
    · intro h i hi
      rw [← dir_line]
      exact h i hi
    · intro h i hi
      rw [dir_line]
      exact h i hi
  refine ⟨_, _, by simp only [search, performLineSearch, e0, e1, Outcome.bind_ok, hn]; rfl,
    ?_, h7, h1, h2⟩
  simp only [Bool.not_eq_false']
  rw [success_iff h1 h2 h5 h6]
  simp only [h7, contains_iff]

/-- The program level search over linear inequalities and constraints without a bound of their own
(equality constraints, quadratic costs): it returns the largest parameter, among the representable
ones, that is admissible for all linear inequalities, or -1 if there is none. -/
theorem C33_program {dmax : R} (hd : 0 ≤ dmax) (big : R) (ps : List (Option (Problem R)))
    (hr : ∀ p, some p ∈ ps → Regular dmax p) (rs : List (Bool × Interval R))
    (hrs : List.Forall₂ (fun p r => (match p with
      | some p => search big dmax p
      | none => trivialLineSearch (Interval.default big)) = .ok r) ps rs) :
    (∀ t, -big ≤ t → t ≤ big → (∀ p, some p ∈ ps → Admissible dmax p t) →
      ∃ k, computeMu big rs = .fin k ∧
        IsGreatest {t | -big ≤ t ∧ t ≤ big ∧ ∀ p, some p ∈ ps → Admissible dmax p t} k) ∧
    ((∀ t, -big ≤ t → t ≤ big → ¬ ∀ p, some p ∈ ps → Admissible dmax p t) →
      computeMu big rs = .fin (-1)) := by
  have hres : ∀ t, -big ≤ t → t ≤ big → ((∀ p, some p ∈ ps → Admissible dmax p t) ↔
      ∀ b ∈ rs, GeL b.2.lower t ∧ LeU b.2.upper t) := by
    intro t ht1 ht2
    induction hrs with
    | nil => simp
    | @cons p r ps rs h _ ih =>
      have ih := ih fun p hp => hr p (List.mem_cons_of_mem _ hp)
      rw [List.forall_mem_cons, ← ih]
      cases p with
      | none =>
        simp only [trivialLineSearch, Outcome.ok.injEq] at h
        subst h
        simp [Interval.default, GeL, LeU, ht1, ht2]
      | some p =>
        obtain ⟨f, b, h1, -, h3, -⟩ := C33_interval hd big p (hr p List.mem_cons_self)
        simp only [h1, Outcome.ok.injEq] at h
        subst h
        simp only [List.mem_cons, Option.some.injEq, forall_eq_or_imp]
        rw [h3, contains_iff]
  have hnan : ∀ b ∈ rs, b.2.lower ≠ .nan ∧ b.2.upper ≠ .nan := by
    clear hres
    induction hrs with
    | nil => simp
    | @cons p r ps rs h _ ih =>
      have ih := ih fun p hp => hr p (List.mem_cons_of_mem _ hp)
      rw [List.forall_mem_cons]
      refine ⟨?_, ih⟩
      cases p with
      | none =>
        simp only [trivialLineSearch, Outcome.ok.injEq] at h
        subst h
        simp [Interval.default]
      | some p =>
        obtain ⟨f, b, h1, -, -, h4⟩ := C33_interval hd big p (hr p List.mem_cons_self)
        simp only [h1, Outcome.ok.injEq] at h
        subst h
        exact h4
  have hfail : (∃ b ∈ rs, b.1 = true) → ∀ t, ¬ ∀ p, some p ∈ ps → Admissible dmax p t := by
    clear hres hnan
    rintro ⟨b, hb, hf⟩ t h
    induction hrs with
    | nil => simp at hb
    | @cons p r ps rs h' _ ih =>
      rcases List.mem_cons.1 hb with rfl | hb
      · cases p with
        | none =>
          simp only [trivialLineSearch, Outcome.ok.injEq] at h'
          subst h'
          simp at hf
        | some p =>
          obtain ⟨f, b, h1, h2, -⟩ := C33_interval hd big p (hr p List.mem_cons_self)
          simp only [h1, Outcome.ok.injEq] at h'
          subst h'
          simp only at hf
          have := h2.2 ⟨t, h p List.mem_cons_self⟩
          rw [hf] at this
          exact absurd this (by decide)
      · exact ih (fun p hp => hr p (List.mem_cons_of_mem _ hp)) hb
          (fun p hp => h p (List.mem_cons_of_mem _ hp))
  unfold computeMu
  rcases hs : searchLoop rs (Interval.default big) with _ | r
  · have := hfail (searchLoop_none.1 hs)
    exact ⟨fun t _ _ h => absurd h (this t), fun _ => rfl⟩
  · obtain ⟨h1, h2, h3, h4, h5, h6⟩ := searchLoop_some hnan (by simp [Interval.default])
      (by simp [Interval.default]) hs
    have h5 := h5 (by simp [Interval.default])
    have h6 := h6 (by simp [Interval.default])
    have hall : ∀ t, GeL r.lower t ∧ LeU r.upper t ↔
        (-big ≤ t ∧ t ≤ big ∧ ∀ p, some p ∈ ps → Admissible dmax p t) := by
      intro t
      rw [h3, h4]
      simp only [Interval.default, GeL, LeU]
      constructor
      · rintro ⟨⟨a1, a2⟩, a3, a4⟩
        exact ⟨a1, a3, (hres t a1 a3).2 fun b hb => ⟨a2 b hb, a4 b hb⟩⟩
      · rintro ⟨a1, a2, a3⟩
        have := (hres t a1 a2).1 a3
        exact ⟨⟨a1, fun b hb => (this b hb).1⟩, a2, fun b hb => (this b hb).2⟩
    obtain ⟨l, u⟩ := r
    simp only at *
    cases l with
    | nan => exact absurd rfl h1
    | ninf => exact absurd rfl h5
    | pinf =>
      have hno : ∀ t, ¬ (-big ≤ t ∧ t ≤ big ∧ ∀ p, some p ∈ ps → Admissible dmax p t) := by
        intro t ht
        exact ((hall t).2 ht).1
      refine ⟨fun t a b c => absurd ⟨a, b, c⟩ (hno t), fun _ => ?_⟩
      cases u with
      | nan => exact absurd rfl h2
      | pinf => exact absurd rfl h6
      | ninf => rfl
      | fin u => rfl
    | fin l =>
      cases u with
      | nan => exact absurd rfl h2
      | pinf => exact absurd rfl h6
      | ninf =>
        have hno : ∀ t, ¬ (-big ≤ t ∧ t ≤ big ∧ ∀ p, some p ∈ ps → Admissible dmax p t) := by
          intro t ht
          exact ((hall t).2 ht).2
        exact ⟨fun t a b c => absurd ⟨a, b, c⟩ (hno t), fun _ => rfl⟩
      | fin u =>
        simp only [GeL, LeU] at hall
        by_cases hlu : l ≤ u
        · have hle : (Ext.fin l).le (Ext.fin u) = true := by simp [Ext.le, Ext.lt, hlu]
          simp only [hle, if_true]
          constructor
          · intro t _ _ _
            exact ⟨u, rfl, (hall u).1 ⟨hlu, le_rfl⟩, fun s hs => ((hall s).2 hs).2⟩
          · intro h
            obtain ⟨a, b, c⟩ := (hall u).1 ⟨hlu, le_rfl⟩
            exact absurd c (h u a b)
        · have hle : (Ext.fin l).le (Ext.fin u) = false := by
            simp [Ext.le, Ext.lt, not_le.1 hlu]
          simp only [hle, Bool.false_eq_true, if_false]
          refine ⟨fun t a b c => ?_, fun _ => trivial⟩
          have := (hall t).2 ⟨a, b, c⟩
          exact absurd (this.1.trans this.2) hlu

/-- Two inequalities in two unknowns. -/
def sample : Problem ℚ :=
  { o := ⟨2, 2, fun i j => if i = j then 1 else 0, fun i => if i = 0 then 1 else 2⟩
    W := fun _ => 1
    c0 := 0
    c1 := 1
    y0 := fun _ => 0
    y1 := fun j => if j = 0 then 3 else 1 }

/-- The hypotheses hold for it, and the interval is [-1, 1/2] for the bound 2. -/
example : Regular 2 sample ∧ search 1000 2 sample = .ok (false, ⟨.fin (-1), .fin (1 / 2)⟩) := by
  refine ⟨⟨⟨0, by decide, by unfold Flat; decide +kernel⟩, ?_⟩, by decide +kernel⟩
  intro i hi
  have hi : i = 0 ∨ i = 1 := by
    simp only [sample] at hi
    omega
  rcases hi with rfl | rfl <;> unfold Flat <;> decide +kernel

/-- Without the assumption on constant components the property fails: if the only component is
constant and too large, no parameter is admissible, but the search reports success. -/
theorem C33_flat_violated :
    ∃ p : Problem ℚ, search 1000 (1 / 2) p = .ok (false, ⟨.ninf, .ninf⟩) ∧
      ∀ t, ¬ Admissible (1 / 2) p t := by
  refine ⟨⟨⟨1, 1, fun _ _ => 0, fun _ => 0⟩, fun _ => 1, 0, 1, fun _ => 0, fun _ => 1⟩,
    by decide +kernel, fun t h => ?_⟩
  have := h 0 (by decide)
  simp only [dir] at this
  norm_num at this

/-- If a constant first component lies exactly on the bound, the upper bound becomes NaN, later
components do not replace it, and the program returns a parameter that violates them: here the
admissible parameters are those from -1 to 0, and the search returns 1000. -/
theorem C33_flat_on_bound_violated :
    ∃ p : Problem ℚ, search 1000 1 p = .ok (false, ⟨.fin (-2), .nan⟩) ∧
      computeMu 1000 [(false, ⟨.fin (-2), .nan⟩)] = .fin (1000 : ℚ) ∧
      ¬ Admissible 1 p 1000 := by
  refine ⟨⟨⟨2, 1, fun i _ => if i = 0 then 0 else 1, fun _ => 0⟩, fun _ => 1, 0, 1, fun _ => 0,
    fun _ => 1⟩, by decide +kernel, by decide +kernel, fun h => ?_⟩
  have := h 1 (by decide)
  simp only [dir] at this
  norm_num at this

end Verif.LineSearch
