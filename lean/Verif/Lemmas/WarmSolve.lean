import Verif.Lemmas.WholeDual
import Verif.Spec.Session

/-!
# Lemmas for C87: solves from any start
-/

namespace Verif.Whole

open Finset Dual Iteration.Spec Spec

/-! ### The same constraint with another workspace -/

theorem Spec.Keep.trans {x y z : Item ℝ} (h : Keep x y) (h' : Keep y z) : Keep x z := by
  cases x <;> first
    | exact h.elim
    | (obtain ⟨w, rfl⟩ := h; exact h')
    | (subst h; exact h')

theorem Spec.Keep.self {x y : Item ℝ} (h : Keep x y) : Keep x x := by
  cases x <;> first | exact h.elim | exact ⟨_, rfl⟩ | rfl

theorem Spec.Keeps.trans {l₁ l₂ l₃ : List (Entry ℝ)} (h : Keeps l₁ l₂) : Keeps l₂ l₃ → Keeps l₁ l₃ := by
  intro h'
  induction h generalizing l₃ with
  | nil => exact h'
  | cons h1 _ ih =>
    cases h' with
    | cons h2 h3 => exact List.Forall₂.cons ⟨h2.1.trans h1.1, h1.2.trans h2.2⟩ (ih h3)

theorem Spec.Keep.setIdentity {x y : Item ℝ} (h : Keep x y) : Keep x (setIdentity y) := by
  cases x <;> first
    | exact h.elim
    | (obtain ⟨w, rfl⟩ := h; exact ⟨_, rfl⟩)
    | (subst h; exact rfl)

theorem Spec.Keeps.identity {l l' : List (Entry ℝ)} (h : Keeps l l') : Keeps l (identity l') := by
  unfold Whole.identity
  induction h with
  | nil => exact List.Forall₂.nil
  | cons h1 _ ih => exact List.Forall₂.cons ⟨h1.1, h1.2.setIdentity⟩ ih

theorem Spec.Keeps.vars {l l' : List (Entry ℝ)} (h : Keeps l l') : l'.map Entry.vars = l.map Entry.vars := by
  induction h with
  | nil => rfl
  | cons h1 _ ih => rw [List.map_cons, List.map_cons, ih, h1.1]

theorem Spec.Keeps.mem {l l' : List (Entry ℝ)} (h : Keeps l l') {e' : Entry ℝ} (he : e' ∈ l') :
    ∃ e ∈ l, e'.vars = e.vars ∧ Keep e.item e'.item := by
  induction h with
  | nil => simp at he
  | cons h1 _ ih =>
    rcases List.mem_cons.1 he with rfl | he
    · exact ⟨_, List.mem_cons_self, h1⟩
    · obtain ⟨e, h2, h3⟩ := ih he
      exact ⟨e, List.mem_cons_of_mem _ h2, h3⟩

theorem Spec.Keeps.mem' {l l' : List (Entry ℝ)} (h : Keeps l l') {e : Entry ℝ} (he : e ∈ l) :
    ∃ e' ∈ l', e'.vars = e.vars ∧ Keep e.item e'.item := by
  induction h with
  | nil => simp at he
  | cons h1 _ ih =>
    rcases List.mem_cons.1 he with rfl | he
    · exact ⟨_, List.mem_cons_self, h1⟩
    · obtain ⟨e, h2, h3⟩ := ih he
      exact ⟨e, List.mem_cons_of_mem _ h2, h3⟩

theorem Spec.Keep.facts {x y : Item ℝ} (h : Keep x y) : Gap.SameData x y ∧ (Usable x → Usable y) ∧
    (∀ z, Insensitive z y ↔ Insensitive z x) ∧ ¬ MatrixCone y ∧ ∀ n Q, y = .cost n Q → x = .cost n Q := by
  cases x <;> first
    | exact h.elim
    | (subst h; exact ⟨Gap.SameData.refl _, id, fun _ => Iff.rfl, id, fun _ _ h => h⟩)
    | (obtain ⟨w, rfl⟩ := h
       exact ⟨⟨fun _ => Iff.rfl, fun _ => rfl, rfl, fun _ h => by cases h⟩, id, fun _ => Iff.rfl, id,
         fun _ _ h => nomatch h⟩)

theorem Spec.Keeps.same {l l' : List (Entry ℝ)} (h : Keeps l l') : Gap.SameProg l l' :=
  List.Forall₂.imp (fun _ _ h => ⟨h.1, h.2.facts.1⟩) h

theorem keep_data {e e' : Entry ℝ} (h : e'.vars = e.vars ∧ Keep e.item e'.item) {N : Nat} (hd : Data e N) :
    Data e' N := by
  obtain ⟨vars, x⟩ := e
  obtain ⟨vars', y⟩ := e'
  obtain ⟨h1, h2⟩ := h
  simp only at h1 h2
  subst h1
  cases x <;> first
    | exact h2.elim
    | (obtain ⟨w, rfl⟩ := h2; exact hd)
    | (subst h2; exact hd)

theorem data_keep {e : Entry ℝ} {N : Nat} (hd : Data e N) : Keep e.item e.item := by
  obtain ⟨vars, x⟩ := e
  obtain ⟨-, -, h⟩ := hd
  cases x <;> first | exact h.elim | exact ⟨_, rfl⟩ | rfl

theorem keeps_self {es : List (Entry ℝ)} {N : Nat} (h : ∀ e ∈ es, Data e N) : Keeps es es := by
  induction es with
  | nil => exact List.Forall₂.nil
  | cons e l ih =>
    exact List.Forall₂.cons ⟨rfl, data_keep (h e List.mem_cons_self)⟩ (ih fun e he => h e (List.mem_cons_of_mem _ he))

theorem good_data {e : Entry ℝ} {N : Nat} (hg : Gap.Spec.Good e N) (hu : Usable e.item) (hm : ¬ MatrixCone e.item) :
    Data e N := by
  obtain ⟨vars, x⟩ := e
  obtain ⟨h1, h2, h3⟩ := hg
  cases x with
  | linear o w => exact ⟨h1, h2, h3.1, hu⟩
  | soc o w => exact ⟨h1, h2, h3.1, h3.2.1⟩
  | quad o w => exact ⟨h1, h2, h3.1, h3.2.1, h3.2.2.1⟩
  | cost n Q => exact ⟨h1, h2, h3⟩
  | equality o => exact hu.elim
  | lmi => exact (hm trivial).elim
  | hermitian => exact (hm trivial).elim
  | octonion => exact (hm trivial).elim

/-- The program stays a program of vector constraints. -/
theorem keeps_program {P : Program ℝ} (hP : VectorProgram P) {es : List (Entry ℝ)} (h : Keeps P.es es)
    {sys : List (Schur.Sys ℝ)} (hz : Sized P.es sys) (cost : Nat → ℝ) :
    VectorProgram { P with es := es, sys := sys, cost := cost } := by
  have hl : es.length = P.es.length := by simpa using congrArg List.length h.vars
  refine ⟨fun e he => ?_, ?_, hP.length.trans hl.symm, hP.noDuals, Iteration.sized_congr hz h.vars, fun u hu => ?_, ?_,
    fun z hz => ?_, fun e he n Q hx => ?_⟩
  · obtain ⟨e₀, h1, h2⟩ := h.mem he
    exact keep_data h2 (hP.data e₀ h1)
  · obtain ⟨e₀, h1, h2⟩ := hP.first
    have : (es.map Entry.vars)[0]? = some e₀.vars := by rw [h.vars, List.getElem?_map, h1]; rfl
    rw [List.getElem?_map, Option.map_eq_some_iff] at this
    obtain ⟨e, h3, h4⟩ := this
    exact ⟨e, h3, h4 ▸ h2⟩
  · obtain ⟨e₀, h1, h2⟩ := hP.occurs u hu
    obtain ⟨e, h3, h4, -⟩ := h.mem' h1
    exact ⟨e, h3, h4 ▸ h2⟩
  · rw [show ({ P with es := es, sys := sys, cost := cost } : Program ℝ).es.map Entry.vars = P.es.map Entry.vars from
      h.vars]
    exact hP.noShift
  · obtain ⟨e₀, h1, h2⟩ := hP.determined z hz
    obtain ⟨e, h3, h4, h5⟩ := h.mem' h1
    exact ⟨e, h3, fun h6 => h2 (by rw [h4] at h6; exact (h5.facts.2.2.1 _).1 h6)⟩
  · obtain ⟨e₀, h1, -, h2⟩ := h.mem he
    exact hP.costs e₀ h1 n Q (h2.facts.2.2.2.2 n Q hx)

/-- The state stays ready. -/
theorem keeps_ready {p : Iteration.Setup ℝ} {duals : List (List Nat)} {x : Iteration.State ℝ} (hr : Ready p duals x)
    {es : List (Entry ℝ)} (h : Keeps x.es es) (hg : ∀ e ∈ es, Gap.Spec.Good e p.N) {sys : List (Schur.Sys ℝ)}
    (hz : Sized x.es sys) (mat : Sup.Store ℝ) : Ready p duals ⟨es, sys, mat⟩ := by
  refine ⟨Iteration.built_congr hr.built h.vars, hr.complete, hr.noDuals, hg, fun e he => ?_,
    Iteration.sized_congr hz h.vars, fun z hz => ?_⟩
  · obtain ⟨e₀, h1, -, h2⟩ := h.mem he
    exact h2.facts.2.1 (hr.usable e₀ h1)
  · obtain ⟨e₀, h1, h2⟩ := hr.determined z hz
    obtain ⟨e, h3, h4, h5⟩ := h.mem' h1
    exact ⟨e, h3, fun h6 => h2 (by rw [h4] at h6; exact (h5.facts.2.2.1 _).1 h6)⟩

/-- The scaling points after `SetIdentity`. -/
theorem identity_good {es : List (Entry ℝ)} {N : Nat} (h : ∀ e ∈ es, Data e N) :
    ∀ e ∈ identity es, Gap.Spec.Good e N := by
  intro e he
  obtain ⟨e₀, h1, rfl⟩ := List.mem_map.1 he
  exact data_good (h e₀ h1)

/-! ### Steps keep the constraints -/

theorem prepare_each {v : Env ℝ} {c : ℝ} {N : Nat} {y : Nat → ℝ} (es : List (Entry ℝ)) :
    ∀ {a b : ℝ} {es' : List (Entry ℝ)} {A B : ℝ}, prepareLoop v c N y a b es = .ok (es', A, B) →
    List.Forall₂ (fun e e' : Entry ℝ => e'.vars = e.vars ∧ ∃ y n β,
      e.item.prepareStep v c e.vars.length y = .ok (e'.item, n, β)) es es' := by
  induction es with
  | nil =>
    intro a b es' A B h
    simp only [prepareLoop, Outcome.ok.injEq, Prod.mk.injEq] at h
    obtain ⟨rfl, -, -⟩ := h
    exact List.Forall₂.nil
  | cons e l ih =>
    intro a b es' A B h
    unfold prepareLoop at h
    simp only [SolveLoop.bind_eq_ok, Outcome.ok.injEq] at h
    obtain ⟨z, -, q, h1, ⟨es₁, A₁, B₁⟩, h2, h3⟩ := h
    simp only [Prod.mk.injEq] at h3
    obtain ⟨rfl, -⟩ := h3
    exact List.Forall₂.cons ⟨rfl, z, q.2.1, q.2.2, h1⟩ (ih h2)

theorem keep_prepare {v : Env ℝ} {c : ℝ} {len : Nat} {y : Nat → ℝ} {x₀ x x' : Item ℝ} {n : Option ℝ} {β : ℝ}
    (h : Keep x₀ x) (hp : x.prepareStep v c len y = .ok (x', n, β)) : Keep x₀ x' := by
  cases x₀ with
  | linear o w =>
    obtain ⟨w, rfl⟩ := h
    simp only [Item.prepareStep, SolveLoop.bind_eq_ok] at hp
    obtain ⟨⟨w', q⟩, -, h⟩ := hp
    cases q with
    | none => cases h
    | some q =>
      cases h
      exact ⟨_, rfl⟩
  | cost m Q =>
    subst h
    cases hp
    rfl
  | soc o w =>
    obtain ⟨w, rfl⟩ := h
    simp only [Item.prepareStep, SolveLoop.bind_eq_ok, Outcome.ok.injEq, Prod.mk.injEq] at hp
    obtain ⟨q, -, rfl, -⟩ := hp
    exact ⟨_, rfl⟩
  | quad o w =>
    obtain ⟨w, rfl⟩ := h
    simp only [Item.prepareStep, SolveLoop.bind_eq_ok, Outcome.ok.injEq, Prod.mk.injEq] at hp
    obtain ⟨q, -, rfl, -⟩ := hp
    exact ⟨_, rfl⟩
  | equality => exact h.elim
  | lmi => exact h.elim
  | hermitian => exact h.elim
  | octonion => exact h.elim

theorem keep_take {v : Env ℝ} {t : ℝ} {x₀ x x' : Item ℝ} (h : Keep x₀ x) (hp : x.takeStep v t = .ok x') :
    Keep x₀ x' := by
  cases x₀ with
  | linear o w =>
    obtain ⟨w, rfl⟩ := h
    cases hp
    exact ⟨_, rfl⟩
  | cost m Q =>
    subst h
    cases hp
    rfl
  | soc o w =>
    obtain ⟨w, rfl⟩ := h
    simp only [Item.takeStep, SolveLoop.bind_eq_ok, Outcome.ok.injEq] at hp
    obtain ⟨w', -, rfl⟩ := hp
    exact ⟨_, rfl⟩
  | quad o w =>
    obtain ⟨w, rfl⟩ := h
    cases hp
    exact ⟨_, rfl⟩
  | equality => exact h.elim
  | lmi => exact h.elim
  | hermitian => exact h.elim
  | octonion => exact h.elim

theorem keep_dual {sqrt exp : ℝ → ℝ} {t : ℝ} {len : Nat} {y : Nat → ℝ} {x₀ x x' : Item ℝ} (h : Keep x₀ x)
    (hp : x.prepareDual sqrt exp t len y = .ok x') : Keep x₀ x' := by
  cases x₀ with
  | cost m Q =>
    subst h
    cases hp
    rfl
  | equality => exact h.elim
  | lmi => exact h.elim
  | hermitian => exact h.elim
  | octonion => exact h.elim
  | _ =>
    obtain ⟨w, rfl⟩ := h
    simp only [Item.prepareDual, SolveLoop.bind_eq_ok, Outcome.ok.injEq] at hp
    obtain ⟨q, -, rfl⟩ := hp
    exact ⟨_, rfl⟩

/-- `PrepareStep` keeps the constraints. -/
theorem keeps_prepare {v : Env ℝ} {c : ℝ} {N : Nat} {y : Nat → ℝ} {es₀ es es' : List (Entry ℝ)} {A B : ℝ}
    (h : Keeps es₀ es) (hp : Dual.prepareStep v c N y es = .ok (es', A, B)) : Keeps es₀ es' := by
  have h1 := prepare_each es hp
  clear hp
  unfold Keeps at h ⊢
  induction h1 generalizing es₀ with
  | nil => exact h
  | cons h2 _ ih =>
    cases h with
    | cons h3 h4 =>
      obtain ⟨h5, y, n, β, h6⟩ := h2
      exact List.Forall₂.cons ⟨h5.trans h3.1, keep_prepare h3.2 h6⟩ (ih h4)

/-- `TakeStep` keeps the constraints. -/
theorem keeps_take {v : Env ℝ} {t : ℝ} {es₀ es es' : List (Entry ℝ)} (h : Keeps es₀ es)
    (hp : Dual.takeStep v t es = .ok es') : Keeps es₀ es' := by
  unfold Keeps at h ⊢
  induction h generalizing es' with
  | nil =>
    simp only [Dual.takeStep, Outcome.ok.injEq] at hp
    subst hp
    exact List.Forall₂.nil
  | cons h1 _ ih =>
    unfold Dual.takeStep at hp
    simp only [SolveLoop.bind_eq_ok, Outcome.ok.injEq] at hp
    obtain ⟨x, h2, l, h3, rfl⟩ := hp
    exact List.Forall₂.cons ⟨h1.1, keep_take h1.2 h2⟩ (ih h3)

/-- The preparation of dual variables keeps the constraints. -/
theorem keeps_dual {sqrt exp : ℝ → ℝ} {t : ℝ} {N : Nat} {y : Nat → ℝ} {es₀ es es' : List (Entry ℝ)}
    (h : Keeps es₀ es) (hp : Dual.prepareDual sqrt exp t N y es = .ok es') : Keeps es₀ es' := by
  unfold Keeps at h ⊢
  induction h generalizing es' with
  | nil =>
    simp only [Dual.prepareDual, Outcome.ok.injEq] at hp
    subst hp
    exact List.Forall₂.nil
  | cons h1 _ ih =>
    unfold Dual.prepareDual at hp
    simp only [SolveLoop.bind_eq_ok, Outcome.ok.injEq] at hp
    obtain ⟨z, -, x, h2, l, h3, rfl⟩ := hp
    exact List.Forall₂.cons ⟨h1.1, keep_dual h1.2 h2⟩ (ih h3)

/-! ### The loop -/

/-- An iteration that happened, on the constraints `es₀`. -/
structure Happened (v : Env ℝ) (p : Iteration.Setup ℝ) (duals : List (List Nat)) (es₀ : List (Entry ℝ)) (k : ℝ)
    (st : Iteration.Step ℝ) : Prop where
  run : ∃ x x', Ready p duals x ∧ Keeps es₀ x.es ∧ Iteration.iterate v p k x = .ok (some (st, x'))
  regular : Unregularized st

/-- What holds before iteration `i` of any solve. -/
structure WInv (v : Env ℝ) (p : Iteration.Setup ℝ) (duals : List (List Nat)) (maxIter capacity : Int)
    (quadratic : Bool) (es₀ : List (Entry ℝ)) (i : Nat) (q : State ℝ) (bs cs : ℝ) : Prop where
  bpos : 0 < bs
  cpos : 0 < cs
  bScale : q.s.stats.bScale = some bs
  cScale : q.s.stats.cScale = some cs
  same : quadratic = true → bs = cs
  cap : q.s.stats.cap = capacity
  enough : maxIter ≤ capacity
  nonneg : 0 ≤ q.s.k
  ready : Ready p duals q.x
  keeps : Keeps es₀ q.x.es
  last : i ≠ 0 → (∃ j, q.s.y = some j) ∧ (∃ n, q.s.stats.numIter = some n) ∧
    ∃ st, q.last = some st ∧ Happened v (scaled p bs cs) duals es₀ q.s.k st

/-- Rescaling. -/
theorem rescale_any {sqrt : ℝ → ℝ} {cfg : SolveLoop.Config ℝ} (o : SolveLoop.Oracle ℝ)
    (hb : 0 ≤ o.bNorm) (hc : 0 ≤ o.aqcNorm) (i : Nat) (s : SolveLoop.State ℝ) {b₀ c₀ : ℝ}
    (hb₀ : s.stats.bScale = some b₀) (hc₀ : s.stats.cScale = some c₀) (h0 : 0 < b₀) (h1 : 0 < c₀) :
    ∃ s' bs cs, SolveLoop.rescale sqrt cfg o i s = .ok s' ∧ s'.stats.bScale = some bs ∧ s'.stats.cScale = some cs ∧
      0 < bs ∧ 0 < cs ∧ (i ≠ 0 ∨ cfg.rescaling = false → bs = b₀ ∧ cs = c₀) ∧ s'.k = s.k ∧
      s'.stats.cap = s.stats.cap := by
  unfold SolveLoop.rescale
  by_cases h : i < 1 ∧ cfg.rescaling = true
  · rw [if_pos h]
    by_cases hm : cfg.mode = 0
    · simp only [hm, if_true, SolveLoop.readVar, Outcome.bind_ok]
      refine ⟨_, _, _, rfl, rfl, rfl, by positivity, by positivity, ?_, rfl, rfl⟩
      rintro (h' | h')
      · exact absurd h.1 (by omega)
      · rw [h.2] at h'
        cases h'
    · simp only [hm, if_false, hb₀, hc₀, SolveLoop.readVar, Outcome.bind_ok]
      exact ⟨_, b₀, c₀, rfl, hb₀, hc₀, h0, h1, fun _ => ⟨rfl, rfl⟩, rfl, rfl⟩
  · rw [if_neg h]
    exact ⟨s, b₀, c₀, rfl, hb₀, hc₀, h0, h1, fun _ => ⟨rfl, rfl⟩, rfl, rfl⟩

/-- An iteration of any solve: the values are those of `iterate`, and the constraints stay as they should be. -/
theorem advanceAt_ok {v : Env ℝ} (hv : ∀ x, 0 ≤ x → SolveLoop.Spec.SqrtAt v.sqrt x) (he : ∀ x, 0 < v.exp x)
    (hs : ∀ n, MatrixExp.Spec.Solves (v.solve n)) {p : Iteration.Setup ℝ} {duals : List (List Nat)}
    {x : Iteration.State ℝ} (hr : Ready p duals x) {es₀ : List (Entry ℝ)} (hk : Keeps es₀ x.es)
    (cfg : SolveLoop.Config ℝ) (i : Nat) (k : ℝ) :
    ∃ f solver st x', Iteration.factorize v p x = .ok f ∧ f.solver = some solver ∧
      advanceAt v p cfg i k x f.sys f.r solver = .ok (st, x') ∧ Happened v p duals es₀ k st ∧ Ready p duals x' ∧
      Keeps es₀ x'.es := by
  obtain ⟨st, x', h1, h2⟩ := Iteration.iterate_total hv he hr k
  obtain ⟨f, solver, h3, h4, h5⟩ := iterate_split h1
  have hm : ∀ e ∈ x.es, ¬ MatrixCone e.item := by
    intro e he
    obtain ⟨e₀, -, -, h⟩ := hk.mem he
    exact h.facts.2.2.2.1
  have hap : Happened v p duals es₀ k st := ⟨⟨x, x', hr, hk, h1⟩, h2⟩
  obtain ⟨hr', -, -⟩ := Iteration.ready_next hv he hs hr h1 h2 fun e he hd => absurd hd (not_dense hm e he)
  have h5' := h5
  unfold Iteration.advance at h5'
  simp only [SolveLoop.bind_eq_ok] at h5'
  obtain ⟨y, g1, ⟨es', A, B⟩, g2, es'', g3, g4⟩ := h5'
  simp only [Outcome.ok.injEq, Prod.mk.injEq] at g4
  obtain ⟨g4, g5⟩ := g4
  have hk' := keeps_prepare hk g2
  have hk'' : Keeps es₀ x'.es := by
    rw [← g5]
    exact keeps_take hk' g3
  unfold advanceAt
  by_cases hw : i = 0 ∧ cfg.mode = 1
  · simp only [if_pos hw, advanceWarm]
    by_cases ha : cfg.warmAbort ≤ A
    · refine ⟨f, solver, st, ⟨identity es', f.sys, solver.mat⟩, h3, h4, ?_, hap, ?_, hk'.identity⟩
      · simp only [g1, g2, Outcome.bind_ok, if_pos ha, g4]
      · have hself : Keeps x.es x.es := keeps_self fun e he => good_data (hr.good e he) (hr.usable e he) (hm e he)
        have hkx : Keeps x.es es' := keeps_prepare hself g2
        refine keeps_ready hr hkx.identity (identity_good fun e he => ?_) ?_ _
        · obtain ⟨e₁, m1, m2⟩ := hkx.mem he
          exact keep_data m2 (good_data (hr.good e₁ m1) (hr.usable e₁ m1) (hm e₁ m1))
        · have := hr'.sized
          rw [← g5] at this
          exact Iteration.sized_congr this (((keeps_take hkx g3).vars).symm)
    · refine ⟨f, solver, st, x', h3, h4, ?_, hap, hr', hk''⟩
      simp only [g1, g2, Outcome.bind_ok, if_neg ha, g3, g4, g5]
  · simp only [if_neg hw]
    exact ⟨f, solver, st, x', h3, h4, h5, hap, hr', hk''⟩

/-- One pass of the loop. -/
theorem body_any {v : Env ℝ} (hv : ∀ x, 0 ≤ x → SolveLoop.Spec.SqrtAt v.sqrt x) (he : ∀ x, 0 < v.exp x)
    (hs : ∀ n, MatrixExp.Spec.Solves (v.solve n)) {p : Iteration.Setup ℝ} {duals : List (List Nat)}
    {cfg : SolveLoop.Config ℝ} (hmu : 0 ≤ 1 / 10 ^ 15 + cfg.maximumMu) (hsteps : 0 < cfg.finalSteps)
    {quadratic : Bool} (hq : quadratic = false ∨ (cfg.lineSearch = true ∧ cfg.rescaling = false))
    (c : SolveLoop.Oracle ℝ) {es₀ : List (Entry ℝ)} {i : Nat} {q : State ℝ} {capacity : Int} {bs cs : ℝ}
    (h : WInv v p duals cfg.maxIter capacity quadratic es₀ i q bs cs) (hi : (i : Int) < cfg.maxIter)
    (hc0 : i = 0 → q.s.centering = 0) :
    ∃ d q', body v p cfg quadratic c i q = .ok (d, q') ∧
      ((d = .brk ∧ 0 < i ∧ WInv v p duals cfg.maxIter capacity quadratic es₀ i q' bs cs) ∨
       ((d = .brk ∨ d = .next) ∧
        ∃ bs' cs', WInv v p duals cfg.maxIter capacity quadratic es₀ (i + 1) q' bs' cs')) := by
  have hk0 : 0 ≤ SolveLoop.kMin v.sqrt cfg := (hv _ (one_div_nonneg.2 hmu)).1
  unfold body
  simp only
  by_cases hex : SolveLoop.finalCentering cfg i q.s = true ∧ cfg.finalSteps ≤ q.s.centering
  · rw [if_pos hex]
    refine ⟨_, _, rfl, Or.inl ⟨rfl, ?_, ⟨h.bpos, h.cpos, h.bScale, h.cScale, h.same, h.cap, h.enough, h.nonneg, h.ready,
      h.keeps, h.last⟩⟩⟩
    by_contra h0
    have := hc0 (by omega)
    have := hex.2
    omega
  · rw [if_neg hex]
    obtain ⟨st₁, x₁, h1, -⟩ := Iteration.iterate_total hv he h.ready 0
    obtain ⟨f, solver, hf, hsol, -⟩ := iterate_split h1
    obtain ⟨s₁, bs₁, cs₁, hs₁, hb₁, hc₁, hbp, hcp, hsame, hk₁, hcap₁⟩ := rescale_any (sqrt := v.sqrt) (cfg := cfg)
      { c with bNorm := norm v.sqrt p.N p.b, aqcNorm := norm v.sqrt p.N f.r.AQc } (norm_nonneg hv _ _)
      (norm_nonneg hv _ _) i { q.s with aborted := false } h.bScale h.cScale h.bpos h.cpos
    obtain ⟨s₂, hs₂, hst₂, hkm₂⟩ := chooseMu_ok c (hq.imp_right And.left) i (SolveLoop.updateMu cfg i q.s)
      { s₁ with trace := .factor i true :: s₁.trace } (by simpa [hk₁] using h.nonneg)
    set K := SolveLoop.applyLimits s₂.k (SolveLoop.kMin v.sqrt cfg) s₂.kMax with hK
    obtain ⟨f', solver', st, x', hf', hsol', hadv, hap, hr', hk'⟩ :=
      advanceAt_ok hv he hs (ready_scaled h.ready bs₁ cs₁) h.keeps cfg i K
    have hff : f' = f := by
      have : Iteration.factorize v (scaled p bs₁ cs₁) q.x = Iteration.factorize v p q.x := rfl
      rw [this, hf, Outcome.ok.injEq] at hf'
      exact hf'.symm
    subst hff
    rw [hsol, Option.some.injEq] at hsol'
    subst hsol'
    have hb₂ : s₂.stats.bScale = some bs₁ := by rw [hst₂]; exact hb₁
    have hc₂ : s₂.stats.cScale = some cs₁ := by rw [hst₂]; exact hc₁
    have hcap₂ : s₂.stats.cap = capacity := by rw [hst₂]; exact hcap₁.trans h.cap
    have henough := h.enough
    obtain ⟨d, s', hfin, hd, hb', hc', hcap', hk'', hy', hn', -, -⟩ := finish_ok (sqrt := v.sqrt) (cfg := cfg) quadratic
      { c with norm := fun _ => st.norm, cx := fun _ => st.cx, bY := fun _ => st.bY } i
      (SolveLoop.finalCentering cfg i q.s) (SolveLoop.updateMu cfg i q.s) s₂ hb₂ hc₂ (by rw [hcap₂]; omega)
    refine ⟨d, ⟨s', x', some st⟩, ?_, Or.inr ⟨hd.symm, bs₁, cs₁, ?_⟩⟩
    · simp only [hf, hs₁, hsol, hs₂, hb₂, hc₂, SolveLoop.readVar, Outcome.bind_ok]
      have : advanceAt v { p with bs := bs₁, cs := cs₁ } cfg i K q.x f'.sys f'.r solver = .ok (st, x') := hadv
      rw [← hK, this]
      simp only [Outcome.bind_ok, hfin]
    · refine ⟨hbp, hcp, hb', hc', fun hqt => ?_, hcap'.trans hcap₂, henough, ?_, ready_scaled hr' p.bs p.cs, hk',
        fun _ => ⟨⟨_, hy'⟩, ⟨_, hn'⟩, st, rfl, ?_⟩⟩
      · rcases hq with hq | hq
        · rw [hq] at hqt
          cases hqt
        · obtain ⟨rfl, rfl⟩ := hsame (Or.inr hq.2)
          exact h.same hqt
      · show 0 ≤ s'.k
        rw [hk'']
        exact hk0.trans (SolveLoop.applyLimits_ge _ _ _)
      · show Happened v (scaled p bs₁ cs₁) duals es₀ s'.k st
        rw [hk'']
        exact hap

/-- The whole loop. -/
theorem loop_any {v : Env ℝ} (hv : ∀ x, 0 ≤ x → SolveLoop.Spec.SqrtAt v.sqrt x) (he : ∀ x, 0 < v.exp x)
    (hs : ∀ n, MatrixExp.Spec.Solves (v.solve n)) {p : Iteration.Setup ℝ} {duals : List (List Nat)}
    {cfg : SolveLoop.Config ℝ} (hmu : 0 ≤ 1 / 10 ^ 15 + cfg.maximumMu) (hsteps : 0 < cfg.finalSteps)
    (hmax : 0 < cfg.maxIter) {quadratic : Bool}
    (hq : quadratic = false ∨ (cfg.lineSearch = true ∧ cfg.rescaling = false)) (c : SolveLoop.Oracle ℝ)
    {es₀ : List (Entry ℝ)} {capacity : Int} :
    ∀ (n i : Nat) (q : State ℝ) (bs cs : ℝ), WInv v p duals cfg.maxIter capacity quadratic es₀ i q bs cs →
      i + n = cfg.maxIter.toNat → (i = 0 → q.s.centering = 0) →
      ∃ q' j bs' cs', loop v p cfg quadratic c n i q = .ok (.brk, q') ∧
        WInv v p duals cfg.maxIter capacity quadratic es₀ (j + 1) q' bs' cs' := by
  intro n
  induction n with
  | zero =>
    intro i q bs cs h hn _
    obtain ⟨j, rfl⟩ : ∃ j, i = j + 1 := ⟨i - 1, by omega⟩
    exact ⟨q, j, bs, cs, rfl, h⟩
  | succ n ih =>
    intro i q bs cs h hn hc0
    obtain ⟨d, q', h1, h2⟩ := body_any hv he hs hmu hsteps hq c h (by omega) hc0
    rcases h2 with ⟨rfl, hi, h3⟩ | ⟨hd, bs', cs', h3⟩
    · obtain ⟨j, rfl⟩ : ∃ j, i = j + 1 := ⟨i - 1, by omega⟩
      refine ⟨q', j, bs, cs, ?_, h3⟩
      simp only [loop, h1, Outcome.bind_ok]
    · rcases hd with rfl | rfl
      · refine ⟨q', i, bs', cs', ?_, h3⟩
        simp only [loop, h1, Outcome.bind_ok]
      · obtain ⟨q'', j, bs'', cs'', h4, h5⟩ := ih (i + 1) q' bs' cs' h3 (by omega) (by omega)
        refine ⟨q'', j, bs'', cs'', ?_, h5⟩
        simp only [loop, h1, Outcome.bind_ok]
        exact h4

/-- The point of an iteration that happened. -/
theorem happened_gap {v : Env ℝ} (hv : ∀ x, 0 ≤ x → SolveLoop.Spec.SqrtAt v.sqrt x) (he : ∀ x, 0 < v.exp x)
    (hs : ∀ n, MatrixExp.Spec.Solves (v.solve n)) {p : Iteration.Setup ℝ} {duals : List (List Nat)}
    {es₀ : List (Entry ℝ)} {k : ℝ} {st : Iteration.Step ℝ} (hbs : 0 < p.bs) (hcs : 0 < p.cs) (hk : 0 < k)
    (h : Happened v p duals es₀ k st) (hn : st.norm ≤ 1) :
    Gap.Spec.Feasible es₀ (fun u => st.y u / (k * p.cs)) ∧ ∀ z, Gap.Spec.Feasible es₀ z →
      Gap.Spec.objective p.N p.b (p.cs / p.bs) es₀ z ≤
        Gap.Spec.objective p.N p.b (p.cs / p.bs) es₀ (fun u => st.y u / (k * p.cs)) +
          (rank es₀ - st.normsqrd) / (k ^ 2 * p.bs * p.cs) := by
  obtain ⟨x, x', hr, hkeep, h1⟩ := h.run
  have hm : ∀ e ∈ x.es, ¬ MatrixCone e.item := by
    intro e he
    obtain ⟨e₀, -, -, h⟩ := hkeep.mem he
    exact h.facts.2.2.2.1
  have key := Iteration.C74_run_partial v hv he hs p hbs hcs duals (fun _ => k) 0 hk
    (fun i => if i = 0 then x else x') (fun _ => st) hr.built hr.sized hr.good ?_ ?_ (fun _ _ => h.regular) ?_ hn
  · simp only [if_true] at key
    obtain ⟨h2, h3⟩ := key
    refine ⟨(hkeep.same.feasible _).1 h2, fun z hz => ?_⟩
    have := h3 z ((hkeep.same.feasible _).2 hz)
    rwa [hkeep.same.objective, hkeep.same.objective, hkeep.same.rank] at this
  · intro i e o h7 h8
    have := hr.usable e (List.mem_of_getElem? h7)
    rw [h8] at this
    exact this.elim
  · intro i hi
    obtain rfl : i = 0 := by omega
    exact h1
  · intro i hi e he
    obtain rfl : i = 0 := by omega
    have hmc := hm e he
    cases hx : e.item <;> rw [hx] at hmc <;> first | trivial | exact (hmc trivial).elim

/-! ### The whole solve -/

/-- The structure of a whole solve from any start. -/
theorem solveAt_ok {v : Env ℝ} (hv : ∀ x, 0 ≤ x → SolveLoop.Spec.SqrtAt v.sqrt x) (he : ∀ x, 0 < v.exp x)
    (hs : ∀ n, MatrixExp.Spec.Solves (v.solve n)) {l : Linear ℝ} (hl : Dense.Spec.LltContract l.llt)
    (hc : Dense.Spec.LltComplete l.llt) (hqr : l.useQr = false) {P : Program ℝ} (hP : VectorProgram P)
    {p : SolveLoop.Prog ℝ} (hp : Belongs P p) {cfg : SolveLoop.Config ℝ} (hcfg : Options P.quadratic cfg)
    {capacity : Int} (hmode : cfg.mode = 0 ∨ (Resumable P p capacity ∧ cfg.maxIter ≤ capacity))
    (c : SolveLoop.Oracle ℝ) :
    ∃ kkt q j bs cs res es,
      WInv v ⟨P.N, P.b, 1, 1, kkt, l.useQr, l.refine, l.llt, l.qr⟩ P.duals cfg.maxIter
        (if cfg.mode = 0 then cfg.maxIter else capacity) P.quadratic P.es (j + 1) q bs cs ∧ P.N = P.m ∧
      solveAt v l P p cfg c = .ok ⟨res, array res.out q.last, q.last, some es⟩ ∧ Keeps P.es es ∧
      (cfg.prepareDual = false → es = q.x.es) ∧ Belongs P res.prog ∧ res.prog.initialized = true ∧
      res.prog.stats = some q.s.stats ∧ res.final = some (q.s.k, q.s.kMax) ∧ (res.ret = true →
        SolveLoop.overThreshold cfg q.s.k = false ∧ res.out = .scaled q.s.y q.s.k cs) := by
  obtain ⟨hN, kkt, hk, hr, hm⟩ := start_ready hP hl hc hqr
  have hne : P.es.length ≠ 0 := by
    obtain ⟨e, h, -⟩ := hP.first
    have := (List.getElem?_eq_some_iff.1 h).1
    omega
  have hself := keeps_self hP.data
  -- the start
  obtain ⟨stats, bs₀, cs₀, hst, hstart⟩ : ∃ stats bs cs,
      (SolveLoop.initProgram (SolveLoop.clearStatus p) cfg).stats = some stats ∧
      WInv v ⟨P.N, P.b, 1, 1, kkt, l.useQr, l.refine, l.llt, l.qr⟩ P.duals cfg.maxIter
        (if cfg.mode = 0 then cfg.maxIter else capacity) P.quadratic P.es 0
        ⟨SolveLoop.start cfg stats, ⟨if cfg.mode = 0 then identity P.es else P.es, P.sys, l.mat⟩, none⟩ bs cs := by
    by_cases h0 : cfg.mode = 0
    · refine ⟨⟨cfg.maxIter, none, some 1, some 1, []⟩, 1, 1, ?_, ?_⟩
      · simp [SolveLoop.initProgram, h0]
      · simp only [if_pos h0]
        exact ⟨one_pos, one_pos, rfl, rfl, fun _ => rfl, rfl, le_rfl, le_rfl, hr, hself.identity, fun h => absurd rfl h⟩
    · obtain ⟨hres, hcap⟩ := hmode.resolve_left h0
      obtain ⟨s, bs, cs, h1, h2, h3, h4, h5, h6, h7⟩ := hres.stats
      have hin : (SolveLoop.clearStatus p).initialized = true := hres.initialized
      refine ⟨s, bs, cs, ?_, ?_⟩
      · simp only [SolveLoop.initProgram, hin, h0, or_self, if_false, Bool.true_eq_false]
        exact h1
      · simp only [if_neg h0]
        refine ⟨h4, h5, h2, h3, h6, h7, hcap, le_rfl, ?_, hself, fun h => absurd rfl h⟩
        have hk' : Keeps (startEs P) P.es := by
          have : ∀ es : List (Entry ℝ), (∀ e ∈ es, Data e P.m) → Keeps (identity es) es := by
            intro es
            induction es with
            | nil => exact fun _ => List.Forall₂.nil
            | cons e es ih =>
              intro h
              refine List.Forall₂.cons ⟨rfl, ?_⟩ (ih fun e he => h e (List.mem_cons_of_mem _ he))
              have hd := h e List.mem_cons_self
              obtain ⟨vars, x⟩ := e
              obtain ⟨-, -, hd⟩ := hd
              cases x <;> first | exact hd.elim | exact ⟨_, rfl⟩ | rfl
          exact this P.es hP.data
        exact keeps_ready hr hk' (fun e he => hN.symm ▸ hres.interior e he) hr.sized _
  obtain ⟨q, j, bs, cs, h1, h2⟩ := loop_any hv he hs hcfg.mu hcfg.steps hcfg.iterations hcfg.quadratic c
    cfg.maxIter.toNat 0 _ bs₀ cs₀ hstart (by omega) fun _ => rfl
  obtain ⟨⟨jy, hy⟩, ⟨n, hnum⟩, st, hlast, hhap⟩ := h2.last (by omega)
  have hinit : (SolveLoop.initProgram (SolveLoop.clearStatus p) cfg).initialized = true ∧
      Belongs P (SolveLoop.initProgram (SolveLoop.clearStatus p) cfg) := by
    unfold SolveLoop.initProgram
    by_cases h : (SolveLoop.clearStatus p).initialized = false ∨ cfg.mode = 0
    · rw [if_pos h]
      exact ⟨rfl, hp⟩
    · rw [if_neg h]
      refine ⟨?_, hp⟩
      rw [not_or] at h
      simpa using h.1
  obtain ⟨res, hres, hst', hfi, hb', hi', hret⟩ : ∃ res,
      SolveLoop.post cfg (SolveLoop.initProgram (SolveLoop.clearStatus p) cfg) q.s = .ok res ∧
        res.prog.stats = some q.s.stats ∧ res.final = some (q.s.k, q.s.kMax) ∧ Belongs P res.prog ∧
        res.prog.initialized = true ∧ (res.ret = true →
          SolveLoop.overThreshold cfg q.s.k = false ∧ res.out = .scaled q.s.y q.s.k cs) := by
    unfold SolveLoop.post SolveLoop.output
    cases ho : SolveLoop.overThreshold cfg q.s.k with
    | true =>
      refine ⟨_, by simp only [hnum, SolveLoop.readVar, Outcome.bind_ok, if_true]; rfl, rfl, rfl, hinit.2, hinit.1,
        fun h => ?_⟩
      simp at h
    | false =>
      exact ⟨_, by simp only [hnum, h2.cScale, SolveLoop.readVar, Outcome.bind_ok, Bool.false_eq_true, if_false]; rfl,
        rfl, rfl, hinit.2, hinit.1, fun _ => ⟨rfl, rfl⟩⟩
  obtain ⟨es, hes⟩ := after_ok hv he h2.bScale (ready_scaled h2.ready bs 1) cfg
  have hkeep : Keeps P.es es ∧ (cfg.prepareDual = false → es = q.x.es) := by
    unfold after at hes
    by_cases hd : cfg.prepareDual = true
    · rw [if_pos hd] at hes
      refine ⟨?_, fun h => by rw [h] at hd; cases hd⟩
      simp only [h2.bScale, SolveLoop.readVar, Outcome.bind_ok, prepareDuals, SolveLoop.bind_eq_ok] at hes
      obtain ⟨f, -, g1⟩ := hes
      cases hsol : f.solver with
      | none => rw [hsol] at g1; cases g1
      | some solver =>
        rw [hsol] at g1
        simp only [SolveLoop.bind_eq_ok, Outcome.ok.injEq, Option.some.injEq] at g1
        obtain ⟨y, -, es', g2, rfl⟩ := g1
        exact keeps_dual h2.keeps g2
    · rw [if_neg hd] at hes
      simp only [Outcome.ok.injEq, Option.some.injEq] at hes
      exact ⟨hes ▸ h2.keeps, fun _ => hes.symm⟩
  refine ⟨kkt, q, j, bs, cs, res, es, h2, hN, ?_, hkeep.1, hkeep.2, hb', hi', hst', hfi, hret⟩
  have h0 : ¬ ((SolveLoop.clearStatus p).initialized = false ∧ cfg.mode ≠ 0) := by
    rintro ⟨h3, h4⟩
    have := (hmode.resolve_left h4).1.initialized
    rw [show (SolveLoop.clearStatus p).initialized = p.initialized from rfl, this] at h3
    cases h3
  unfold solveAt
  rw [if_neg (not_not.2 hcfg.quadratic)]
  simp only
  rw [if_neg hne, if_neg h0]
  simp only [hk, Outcome.bind_ok, hst, h1, hres, hes]

end Verif.Whole
