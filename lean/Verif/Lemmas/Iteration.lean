import Verif.Lemmas.Infeasible
import Verif.Spec.Iteration
import Verif.Props.CholeskyAccept

/-!
# Lemmas for C74: the parts of an iteration
-/

namespace Verif.Iteration

open Finset Dual Gap.Spec Spec

theorem schur_rows {sqrt : ℝ → ℝ} {x : Item ℝ} {s s' : Schur.Sys ℝ} (h : x.schur sqrt s = .ok s') :
    s'.rows = s.rows := by
  cases x with
  | linear o w =>
    simp only [Item.schur, Linear.schur] at h
    split_ifs at h with h1 h2 h3 <;> cases h <;> rfl
  | lmi n o w =>
    simp only [Item.schur, Lmi.schur] at h
    split_ifs at h with h1
    cases h
    rfl
  | hermitian d n hd o w =>
    simp only [Item.schur, HermLmi.schur] at h
    cases ho : o.affine with
    | none => simp only [ho] at h; split_ifs at h
    | some C => simp only [ho] at h; split_ifs at h <;> cases h <;> rfl
  | octonion n o w =>
    simp only [Item.schur, HermLmi.schur] at h
    split_ifs at h with h1
    cases ho : o.affine with
    | none => rw [ho] at h; cases h
    | some C => rw [ho] at h; cases h; rfl
  | soc o w =>
    simp only [Item.schur, Soc.schur, SolveLoop.bind_eq_ok] at h
    obtain ⟨z, -, h⟩ := h
    split_ifs at h with h1 h2 <;> cases h <;> rfl
  | quad o w =>
    simp only [Item.schur, QuadCone.schur] at h
    split_ifs at h with h1
    cases h
    rfl
  | equality o =>
    simp only [Item.schur, Equality.schur] at h
    split_ifs at h with h1 <;> cases h <;> rfl
  | cost n Q =>
    simp only [Item.schur, Equality.costSchur] at h
    split_ifs at h with h1 <;> cases h <;> rfl

theorem schurAll_spec {sqrt : ℝ → ℝ} (es : List (Entry ℝ)) : ∀ {sys sys' : List (Schur.Sys ℝ)},
    schurAll sqrt es sys = .ok sys' → Sized es sys →
    Sized es sys' ∧ KktError.Spec.Contributions sqrt es (sysAt sys') := by
  induction es with
  | nil =>
    intro sys sys' h hs
    simp only [schurAll, Outcome.ok.injEq] at h
    subst h
    exact ⟨rfl, fun i e h => by simp at h⟩
  | cons e es ih =>
    intro sys sys' h hs
    cases sys with
    | nil => cases h
    | cons s sys =>
      simp only [schurAll, SolveLoop.bind_eq_ok] at h
      obtain ⟨t, h1, sys1, h2, h3⟩ := h
      simp only [Outcome.ok.injEq] at h3
      subst h3
      simp only [Sized, List.map_cons, List.cons.injEq] at hs
      obtain ⟨h4, h5⟩ := ih h2 hs.2
      refine ⟨?_, ?_⟩
      · simp only [Sized, List.map_cons, List.cons.injEq]
        exact ⟨(schur_rows h1).trans hs.1, h4⟩
      · intro i e' he
        cases i with
        | zero =>
          simp only [List.getElem?_cons_zero, Option.some.injEq] at he
          subst he
          exact ⟨s, hs.1, h1⟩
        | succ i => exact h5 i e' he

theorem take_vars {v : Env ℝ} {c size : ℝ} {N : Nat} {y : Nat → ℝ} {es es' es'' : List (Entry ℝ)} {A B : ℝ}
    (hp : Dual.prepareStep v c N y es = .ok (es', A, B)) (ht : Dual.takeStep v size es' = .ok es'') :
    es''.map Entry.vars = es.map Entry.vars := by
  have h := Gap.prepare_take es hp ht
  clear hp ht
  induction h with
  | nil => rfl
  | cons h1 _ ih => simp only [List.map_cons, ih, h1.1]

theorem sized_congr {es es' : List (Entry ℝ)} {sys : List (Schur.Sys ℝ)} (h : Sized es sys)
    (he : es'.map Entry.vars = es.map Entry.vars) : Sized es' sys := by
  unfold Sized at h ⊢
  have : ∀ l : List (Entry ℝ), (l.map fun e => e.vars.length) = (l.map Entry.vars).map List.length := by
    intro l
    rw [List.map_map]
    rfl
  rw [h, this, this, he]

/-- The parts of an iteration. -/
theorem iterate_ok {v : Env ℝ} {p : Setup ℝ} {k : ℝ} {x x' : State ℝ} {st : Step ℝ}
    (h : iterate v p k x = .ok (some (st, x'))) :
    ∃ w m r solver es', schurAll v.sqrt x.es x.sys = .ok x'.sys ∧
      Sup.assemble p.kkt (fun i => (sysAt x'.sys i).G) x.mat = .ok (w, m) ∧
      Sup.assembleResiduals p.N (x.es.map Entry.vars) (fun i => KktError.resid (sysAt x'.sys i)) = .ok r ∧
      (Sup.Solver.mk p.kkt w m p.useQr p.refine none none).factor p.llt = .ok (some solver) ∧
      solver.solveInPlace p.qr p.N (rhs p k r) = .ok st.y ∧ st.fact = solver.fact ∧ x'.mat = solver.mat ∧
      Dual.prepareStep v (k * p.cs) p.N st.y x.es = .ok (es', st.norm, st.normsqrd) ∧
      Dual.takeStep v (SolveLoop.stepSize st.norm) es' = .ok x'.es ∧
      st.bY = KktError.byValue p.N p.b st.y k p.cs ∧ st.cx = KktError.cxValue p.N r st.y k p.bs p.cs := by
  unfold iterate factorize at h
  simp only [SolveLoop.bind_eq_ok] at h
  obtain ⟨f, ⟨sys, h1, ⟨w, m⟩, h2, r, h3, f', h4, h4'⟩, h5⟩ := h
  simp only [Outcome.ok.injEq] at h4'
  subst h4'
  cases f' with
  | none => cases h5
  | some solver =>
    simp only [SolveLoop.bind_eq_ok, advance] at h5
    obtain ⟨q, ⟨y, h5, ⟨es', A, B⟩, h6, es'', h7, h7'⟩, h8⟩ := h5
    simp only [Outcome.ok.injEq] at h7'
    subst h7'
    simp only [Outcome.ok.injEq, Option.some.injEq, Prod.mk.injEq] at h8
    obtain ⟨rfl, rfl⟩ := h8
    exact ⟨w, m, r, solver, es', h1, h2, h3, h4, h5, rfl, rfl, h6, h7, rfl, rfl⟩

/-- The linear system that an iteration solves. -/
theorem iterate_values {v : Env ℝ} {p : Setup ℝ} {k : ℝ} {x x' : State ℝ} {st : Step ℝ} {duals : List (List Nat)}
    (hb : Built p duals x.es) (hnd : ∀ e ∈ x.es, e.vars.Nodup) (hz : Sized x.es x.sys)
    (h : iterate v p k x = .ok (some (st, x'))) (hu : Unregularized st) :
    Infeasible.Spec.Values v.sqrt p.N p.b k p.bs p.cs x.es st.y st.cx st.bY ∧ Sized x'.es x'.sys ∧
      x'.es.map Entry.vars = x.es.map Entry.vars := by
  obtain ⟨w, m, r, solver, es', h1, h2, h3, h4, h5, h6, -, h7, h8, h9, h10⟩ := iterate_ok h
  obtain ⟨h11, h12⟩ := schurAll_spec _ h1 hz
  have hv := take_vars h7 h8
  have hnd' : ∀ c ∈ x.es.map Entry.vars, c.Nodup := by
    intro c hc
    obtain ⟨e, he, rfl⟩ := List.mem_map.1 hc
    exact hnd e he
  obtain ⟨w', m', h13, h14⟩ := Sup.C21_assembled_system _ duals hnd' (by simp [hb.length]) hb.last p.kkt hb.kkt
    hb.noShift p.N hb.occurs p.llt hb.llt p.qr (fun i => (sysAt x'.sys i).G) x.mat p.refine
  rw [h2, Outcome.ok.injEq, Prod.mk.injEq] at h13
  obtain ⟨rfl, rfl⟩ := h13
  rw [hb.mode] at h4
  obtain ⟨y, h15, h16⟩ := h14 solver h4 (fun F hF => hu F (h6.trans hF)) (rhs p k r)
  rw [h5, Outcome.ok.injEq] at h15
  subst h15
  obtain ⟨r', h17, -, -, h18, h19⟩ := Sup.C19_residuals p.N (x.es.map Entry.vars)
    (fun i => KktError.resid (sysAt x'.sys i)) hnd' fun c hc u hu => (hb.occurs u).2 ⟨c, hc, hu⟩
  rw [h3, Outcome.ok.injEq] at h17
  subst h17
  refine ⟨⟨_, r, h12, fun u hu => ?_, h3, h10, h9⟩, sized_congr h11 hv, hv⟩
  rw [h16 u hu, rhs, h18 u, h19 u]
  simp only [List.length_map, KktError.resid]
  ring

theorem built_congr {p : Setup ℝ} {duals : List (List Nat)} {es es' : List (Entry ℝ)} (h : Built p duals es)
    (he : es'.map Entry.vars = es.map Entry.vars) : Built p duals es' := by
  have hl : es'.length = es.length := by simpa using congrArg List.length he
  exact ⟨by rw [he]; exact h.kkt, h.llt, h.mode, h.length.trans hl.symm, by rw [he]; exact h.last, h.noShift,
    by rw [he]; exact h.occurs⟩

theorem nodup_congr {es es' : List (Entry ℝ)} (h : ∀ e ∈ es, e.vars.Nodup)
    (he : es'.map Entry.vars = es.map Entry.vars) : ∀ e ∈ es', e.vars.Nodup := by
  intro e he'
  have : e.vars ∈ es.map Entry.vars := he ▸ List.mem_map_of_mem he'
  obtain ⟨e₁, h1, h2⟩ := List.mem_map.1 this
  exact h2 ▸ h e₁ h1

/-- The iterations of a chain. -/
theorem chain_values {v : Env ℝ} {p : Setup ℝ} {k : Nat → ℝ} {j : Nat} {x : Nat → State ℝ} {st : Nat → Step ℝ}
    {duals : List (List Nat)} (hb : Built p duals (x 0).es) (hnd : ∀ e ∈ (x 0).es, e.vars.Nodup)
    (hz : Sized (x 0).es (x 0).sys) (h : Chain v p k j x st) (hu : ∀ i ≤ j, Unregularized (st i)) :
    ∀ i ≤ j, Infeasible.Spec.Values v.sqrt p.N p.b (k i) p.bs p.cs (x i).es (st i).y (st i).cx (st i).bY := by
  have key : ∀ i ≤ j + 1, Sized (x i).es (x i).sys ∧ (x i).es.map Entry.vars = (x 0).es.map Entry.vars := by
    intro i
    induction i with
    | zero => exact fun _ => ⟨hz, rfl⟩
    | succ i ih =>
      intro hi
      obtain ⟨h1, h2⟩ := ih (by omega)
      obtain ⟨-, h3, h4⟩ := iterate_values (built_congr hb h2) (nodup_congr hnd h2) h1 (h i (by omega)) (hu i (by omega))
      exact ⟨h3, h4.trans h2⟩
  intro i hi
  obtain ⟨h1, h2⟩ := key i (by omega)
  exact (iterate_values (built_congr hb h2) (nodup_congr hnd h2) h1 (h i hi) (hu i hi)).1

theorem chain_run {v : Env ℝ} {p : Setup ℝ} {k : Nat → ℝ} {j : Nat} {x : Nat → State ℝ} {st : Nat → Step ℝ}
    {duals : List (List Nat)} (hb : Built p duals (x 0).es) (hnd : ∀ e ∈ (x 0).es, e.vars.Nodup)
    (hz : Sized (x 0).es (x 0).sys) (h : Chain v p k j x st) (hu : ∀ i ≤ j, Unregularized (st i)) :
    Run v p.N p.b p.bs p.cs k (fun i => (st i).norm) j (fun i => (x i).es) (fun i => (st i).y) := by
  intro i hi
  obtain ⟨s, r, h1, h2, -⟩ := chain_values hb hnd hz h hu i hi
  obtain ⟨-, -, -, -, es', -, -, -, -, -, -, -, h3, h4, -⟩ := iterate_ok (h i hi)
  exact ⟨Infeasible.system_of h1 h2, es', _, h3, fun _ => h4⟩

end Verif.Iteration
