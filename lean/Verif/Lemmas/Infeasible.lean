import Verif.Lemmas.GapRun
import Verif.Lemmas.KktError
import Verif.Lemmas.Solve
import Verif.Spec.Infeasible

/-!
# Lemmas for C73: the objective values as bounds
-/

namespace Verif.Infeasible

open Finset Dual Gap Gap.Spec Spec

theorem regular_of {e : Entry ℝ} {N : Nat} (h : Gap.Spec.Good e N) (hc : ∀ n Q, e.item ≠ .cost n Q) :
    KktError.Spec.Regular e N := by
  obtain ⟨vars, x⟩ := e
  cases x with
  | octonion n o w => exact h.2.2.elim
  | cost n Q => exact (hc n Q rfl).elim
  | _ => exact h

/-- Steps change no constraint into a quadratic cost. -/
theorem step_cost {v : Env ℝ} {c size β : ℝ} {len : Nat} {y : Nat → ℝ} {x x' x'' : Item ℝ} {n : Option ℝ}
    (hp : x.prepareStep v c len y = .ok (x', n, β)) (ht : x'.takeStep v size = .ok x'')
    (hx : ∀ m Q, x ≠ .cost m Q) : ∀ m Q, x'' ≠ .cost m Q := by
  rintro m Q rfl
  have h1 : x' = .cost m Q := by
    cases x' <;> simp only [Item.takeStep, SolveLoop.bind_eq_ok, Outcome.ok.injEq, reduceCtorEq, and_false,
      exists_false] at ht
    exact ht
  subst h1
  cases x with
  | cost m Q => exact hx m Q rfl
  | linear o w =>
    simp only [Item.prepareStep, SolveLoop.bind_eq_ok] at hp
    obtain ⟨⟨w', q⟩, -, h⟩ := hp
    cases q <;> cases h
  | _ =>
    simp only [Item.prepareStep, SolveLoop.bind_eq_ok, Outcome.ok.injEq, Prod.mk.injEq, reduceCtorEq, false_and,
      and_false, exists_false] at hp

theorem noCost_step {v : Env ℝ} {N : Nat} {es es' es'' : List (Entry ℝ)} {c A B size : ℝ} {y : Nat → ℝ}
    (hp : Dual.prepareStep v c N y es = .ok (es', A, B)) (ht : Dual.takeStep v size es' = .ok es'')
    (hc : NoCost es) : NoCost es'' := by
  have h := prepare_take es hp ht
  clear hp ht
  induction h with
  | nil => exact hc
  | cons h1 _ ih =>
    obtain ⟨-, x', n, β, h2, h3⟩ := h1
    intro e he
    rcases List.mem_cons.1 he with rfl | he
    · exact step_cost h2 h3 (hc _ List.mem_cons_self)
    · exact ih (fun e he => hc e (List.mem_cons_of_mem _ he)) e he

theorem run_noCost {v : Env ℝ} {N : Nat} {b : Nat → ℝ} {bs cs : ℝ} {k norm : Nat → ℝ} {j : Nat}
    {es : Nat → List (Entry ℝ)} {y : Nat → Nat → ℝ} (hr : Run v N b bs cs k norm j es y)
    (hc : NoCost (es 0)) : ∀ i ≤ j, NoCost (es i) := by
  intro i
  induction i with
  | zero => exact fun _ => hc
  | succ i ih =>
    intro hi
    obtain ⟨-, es', B, h3, h4⟩ := hr i (by omega)
    exact noCost_step h3 (h4 (by omega)) (ih (by omega))

theorem objective_noCost {es : List (Entry ℝ)} (hc : NoCost es) (N : Nat) (b : Nat → ℝ) (r : ℝ) (z : Nat → ℝ) :
    objective N b r es z = ∑ u ∈ range N, b u * z u := by
  unfold objective
  have : (es.map fun e => quadCost (fun j => z (e.vars.getD j 0)) e.item).sum = 0 := by
    refine List.sum_eq_zero fun t ht => ?_
    obtain ⟨e, he, rfl⟩ := List.mem_map.1 ht
    have := hc e he
    obtain ⟨vars, x⟩ := e
    cases x with
    | cost n Q => exact (this n Q rfl).elim
    | _ => rfl
  rw [this, mul_zero, sub_zero]

/-- The system of C71. -/
theorem system_of {sqrt : ℝ → ℝ} {N : Nat} {b y : Nat → ℝ} {k bs cs : ℝ} {es : List (Entry ℝ)}
    {s : Nat → Schur.Sys ℝ} (hs : KktError.Spec.Contributions sqrt es s)
    (hy : KktError.Spec.Solves N b k bs cs es s y) : System sqrt N b k bs cs es y := by
  classical
  have : ∀ i, ∃ s₀ : Schur.Sys ℝ, ∀ e : Entry ℝ, es[i]? = some e →
      s₀.rows = e.vars.length ∧ e.item.schur sqrt s₀ = .ok (s i) := by
    intro i
    cases he : es[i]? with
    | none => exact ⟨s 0, fun e h => by cases h⟩
    | some e =>
      obtain ⟨s₀, h⟩ := hs i e he
      exact ⟨s₀, fun e' h' => by cases h'; exact h⟩
  choose s₀ h using this
  exact ⟨s₀, s, fun i e he => (h i e he).1, fun i e he => (h i e he).2, hy⟩

theorem byValue_eq (N : Nat) (b y : Nat → ℝ) (k cs : ℝ) :
    ∑ u ∈ range N, b u * (y u / (k * cs)) = KktError.byValue N b y k cs := by
  unfold KktError.byValue
  rw [mul_one, sum_div]
  exact sum_congr rfl fun u _ => by rw [mul_div_assoc]

end Verif.Infeasible
