import Verif.Lemmas.MatlabRun
import Verif.Lemmas.MatlabRunLib
import Verif.Props.MatlabConex

/-!
# Lemmas for the soundness of the MATLAB function `conex`
-/

namespace Verif.Matlab

open Spec
open SolveLoop (bind_eq_ok)
open Verif.ConeBase (RawCone cleanK)
open scoped BigOperators

/-! ### No variables between the free ones and the matrices -/

theorem maskLoopAt_zero (P : Prob ℝ) : ∀ (f : Nat) (M : Nat → Bool) (k : Nat),
    maskLoopAt 0 P f M k = maskLoop P f M k := by
  intro f
  induction f with
  | zero => intro M k; rfl
  | succ f ih =>
    intro M k
    simp only [maskLoopAt, maskLoop, ih]

theorem blkdiagAt_zero (P : Prob ℝ) : blkdiagAt 0 P = blkdiag P := by
  unfold blkdiagAt blkdiag buildMask
  simp only [maskLoopAt_zero, List.range_zero, List.filter_nil, List.nil_append]

theorem midVars_zero {K : RawCone} (h : OnlyMatrices K) : midVars K = 0 := by
  obtain ⟨h1, h2, h3⟩ := h
  have hv : ∀ v : Option (List Nat), (∀ q, v = some q → ∀ n ∈ q, n = 0) → (ConeBase.cleanVector v).sum = 0 := by
    intro v hv
    rcases v with _ | _ | ⟨a, l⟩
    · rfl
    · rfl
    · exact List.sum_eq_zero (hv _ rfl)
  have hl : (cleanK K).l = 0 := by
    show ConeBase.cleanScalar K.l = 0
    rcases hk : K.l with _ | _ | n
    · rfl
    · rfl
    · exact h1 n hk
  have hq : (cleanK K).q.sum = 0 := hv _ h2
  have hr : (cleanK K).r.sum = 0 := hv _ h3
  simp [midVars, hl, hq, hr]

theorem nontrivial_iff {v : Option (List Nat)} :
    isNontrivial v = true ↔ ∃ q, v = some q ∧ q ≠ [] ∧ ∀ n ∈ q, 0 < n := by
  rcases v with _ | _ | ⟨a, l⟩ <;> simp [isNontrivial]

theorem blkdiagPrgAt_zero {P : Prob ℝ} {K : RawCone} (hK : midVars K = 0) {r : List Nat × List Nat × Prob ℝ}
    (h : blkdiagPrgAt K P = .ok r) : blkdiagPrg P = .ok r := by
  unfold blkdiagPrgAt at h
  rw [hK] at h
  obtain ⟨no, -, h⟩ := bind_eq_ok.1 h
  cases no with
  | true => simp at h
  | false =>
    simp only [Bool.false_eq_true, if_false] at h
    rw [blkdiagAt_zero] at h
    exact h

theorem extractOut_ok {Q : Prob ℝ} {Ls : List (Lmi ℝ)} (h : extractOut Q = .ok Ls) : Q.s ≠ [] ∧ Ls = extract Q := by
  unfold extractOut at h
  by_cases h0 : Q.s = []
  · rw [if_pos h0] at h; cases h
  · rw [if_neg h0] at h
    exact ⟨h0, by simpa using h.symm⟩

theorem preprocessAt_zero {la : LinAlg ℝ} {P : Prob ℝ} {K : RawCone} (hK : midVars K = 0)
    {r : (List Nat × List Nat × Prob ℝ) × List (Lmi ℝ)} (h : preprocessAt la P K = .ok r) :
    preprocess la P (K.f.map fun v => v.getD 0) true = .ok r ∧ r.1.2.2.s ≠ [] ∧
      (cleanK K).f = (K.f.map fun v => v.getD 0).getD 0 ∧ (K.f = none ∨ (cleanK K).f = 1) := by
  unfold preprocessAt at h
  cases hf : K.f with
  | none =>
    simp only [hf] at h
    obtain ⟨a, h1, h⟩ := bind_eq_ok.1 h
    obtain ⟨Ls, h2, h⟩ := bind_eq_ok.1 h
    obtain ⟨h3, rfl⟩ := extractOut_ok h2
    obtain rfl : _ = r := by simpa using h
    refine ⟨?_, h3, by simp [cleanK, ConeBase.cleanScalar, hf], .inl rfl⟩
    simp only [preprocess, Option.map_none, blkdiagPrgAt_zero hK h1, Outcome.bind_ok]
  | some v =>
    simp only [hf] at h
    by_cases hv : v.getD 0 = 1
    · rw [if_neg (by simpa using hv)] at h
      obtain ⟨a, h1, h⟩ := bind_eq_ok.1 h
      obtain ⟨Ls, h2, h⟩ := bind_eq_ok.1 h
      obtain ⟨h3, rfl⟩ := extractOut_ok h2
      obtain rfl : _ = r := by simpa using h
      have hc : (cleanK K).f = v.getD 0 := by
        cases v <;> simp [cleanK, ConeBase.cleanScalar, hf]
      refine ⟨?_, h3, by simp [hc], .inr (by rw [hc, hv])⟩
      simp only [preprocess, Option.map_some, hv, Bool.true_and, blkdiagPrgAt_zero hK h1, Outcome.bind_ok]
      rfl
    · rw [if_pos (by simpa using hv)] at h
      cases h

/-! ### The cells -/

theorem assemble_glued : ∀ {s : List Nat} {off : Nat} {Ls : List (Lmi ℝ)} {X : Nat → Nat → ℝ} {x0 x : Nat → ℝ},
    assemble s off (Ls.mapIdx fun k L => (L.n * L.n, X k)) x0 = .ok x →
    (∀ (k n : Nat) (L : Lmi ℝ), s[k]? = some n → Ls[k]? = some L → L.n = n) → Glued s off X x ∧ s.length ≤ Ls.length := by
  intro s
  induction s with
  | nil => intros; exact ⟨trivial, Nat.zero_le _⟩
  | cons n ns ih =>
    intro off Ls X x0 x h hn
    cases Ls with
    | nil => simp [assemble] at h
    | cons L Ls =>
      have hL : L.n = n := hn 0 n L rfl rfl
      rw [List.mapIdx_cons] at h
      simp only [assemble] at h
      rw [if_pos (.inl (by rw [hL]))] at h
      obtain ⟨g, gl⟩ := ih (X := fun k => X (k + 1)) h fun k a M ha hM => hn (k + 1) a M (by simpa using ha) (by simpa using hM)
      refine ⟨⟨fun t ht => ?_, g⟩, by simpa using gl⟩
      rw [assemble_get h (off + t) (by omega)]
      rw [if_pos ⟨by omega, by omega⟩, if_pos (by rw [hL]), Nat.add_sub_cancel_left]

theorem allStand_orders {m : Nat} {A : Nat → Nat → ℝ} {c : Nat → ℝ} : ∀ {s : List Nat} {off : Nat}
    {Ls : List (Lmi ℝ)}, AllStand m A c s off Ls → Ls.length = s.length ∧
      (∀ (k n : Nat) (L : Lmi ℝ), s[k]? = some n → Ls[k]? = some L → L.n = n) ∧
      ∀ L ∈ Ls, L.n ∈ s ∧ L.vars.Nodup ∧ ∀ v ∈ L.vars, v < m := by
  intro s
  induction s with
  | nil =>
    intro off Ls h
    cases Ls with
    | nil => simp
    | cons L Ls => exact absurd h (by simp [AllStand])
  | cons n ns ih =>
    intro off Ls h
    cases Ls with
    | nil => exact absurd h (by simp [AllStand])
    | cons L Ls =>
      obtain ⟨h1, h2⟩ := h
      obtain ⟨a, b, c⟩ := ih h2
      refine ⟨by simp [a], ?_, ?_⟩
      · intro k p M hp hM
        cases k with
        | zero =>
          simp only [List.getElem?_cons_zero, Option.some.injEq] at hp hM
          rw [← hp, ← hM, h1.order]
        | succ k => exact b k p M (by simpa using hp) (by simpa using hM)
      · intro M hM
        rcases List.mem_cons.1 hM with rfl | hM
        · exact ⟨by simp [h1.order], h1.nodup, h1.lt⟩
        · obtain ⟨d, e⟩ := c M hM
          exact ⟨List.mem_cons_of_mem _ d, e⟩

/-- Only the first `m` numbers of `y` matter. -/
theorem solution_congr {m : Nat} {Ls : List (Lmi ℝ)} (hlt : ∀ L ∈ Ls, ∀ v ∈ L.vars, v < m) {b y y' : Nat → ℝ}
    {X : Nat → Nat → ℝ} (hy : ∀ i < m, y' i = y i) (h : LmiSolution m Ls b y X) : LmiSolution m Ls b y' X where
  slack L hL := by
    have : slack L y' = slack L y := by
      ext i j
      simp only [slack, Matrix.of_apply]
      congr 1
      refine Finset.sum_congr rfl fun v hv => ?_
      have hv := Finset.mem_range.1 hv
      rw [hy _ (hlt L hL _ ?_)]
      rw [List.getD_eq_getElem?_getD, List.getElem?_eq_getElem hv, Option.getD_some]
      exact List.getElem_mem hv
    rw [this]
    exact h.slack L hL
  psd := h.psd
  eqs := h.eqs
  gap := by
    rw [h.gap]
    exact Finset.sum_congr rfl fun r hr => by rw [hy r (Finset.mem_range.1 hr)]

/-! ### The steps of `conex` -/

theorem preprocess_stands {la : LinAlg ℝ} {P : Prob ℝ} {kf : Option Nat} {rc : Bool}
    {r : (List Nat × List Nat × Prob ℝ) × List (Lmi ℝ)} (h : preprocess la P kf rc = .ok r)
    (hN : P.N = kf.getD 0 + numVar P.s) :
    r.1.2.2.N = numVar r.1.2.2.s ∧ AllStand r.1.2.2.m r.1.2.2.A r.1.2.2.c r.1.2.2.s 0 r.2 := by
  cases kf with
  | none =>
    obtain ⟨a, b, c, h1, h2, h3⟩ := blkdiagPrg_stands P (by simpa using hN)
    simp only [preprocess, h1, Outcome.bind_ok, Outcome.ok.injEq] at h
    subst h
    exact ⟨h2, h3⟩
  | some f =>
    obtain ⟨a, b, c, h1, h2, h3⟩ := blkdiagPrg_stands (eliminateFree la P f) (by
      show P.N - f = numVar P.s
      simp only [Option.getD_some] at hN
      omega)
    simp only [preprocess] at h
    by_cases h0 : (rc && f != 1) = true
    · rw [if_pos h0] at h
      cases h
    · rw [if_neg h0, h1] at h
      simp only [Outcome.bind_ok, Outcome.ok.injEq] at h
      subst h
      exact ⟨h2, h3⟩

theorem maximize_solution {m : Nat} {Ls : List (Lmi ℝ)} {regs : List Nat} {h : Handle ℝ} (hb : Built m Ls regs h)
    {sol : Solver ℝ} (hr : Right sol) {b : Nat → ℝ} {o : Bool × (Nat → ℝ) × List (Nat × (Nat → ℝ))}
    (ho : maximize sol h m b = .ok o) (h1 : o.1 = true) : ∃ X : Nat → Nat → ℝ,
    (o.2.2 = Ls.mapIdx fun k L => (L.n * L.n, X k)) ∧ (regs = Ls.map fun L => L.vars.length) ∧
      LmiSolution m Ls (fun i => if i < m then b i else 0) o.2.1 X := by
  rw [maximize_eq hb] at ho
  by_cases hg : regs ≠ Ls.map fun L => L.vars.length
  · rw [if_pos hg] at ho
    cases ho
  · rw [if_neg hg] at ho
    simp only [Outcome.ok.injEq] at ho
    subst ho
    exact ⟨_, rfl, not_not.1 hg, hr _ _ _ h1⟩

theorem sparse_solution {Q : Prob ℝ} (hQ : Q.N = numVar Q.s) {Ls : List (Lmi ℝ)}
    (hst : AllStand Q.m Q.A Q.c Q.s 0 Ls) {h0 h : Handle ℝ} (e0 : newProgram Q.m = .ok h0)
    (e1 : addAll Ls h0 = .ok h) {sol : Solver ℝ} (hr : Right sol)
    {o : Bool × (Nat → ℝ) × List (Nat × (Nat → ℝ))} (e2 : maximize sol h Q.m Q.b = .ok o) (h1 : o.1 = true)
    {x : Nat → ℝ} (e3 : assemble Q.s 0 o.2.2 (fun _ => 0) = .ok x) :
    FreePrimalFeasible Q 0 x ∧ FreeDualFeasible Q 0 o.2.1 ∧ primalCost Q x = dualCost Q o.2.1 := by
  obtain ⟨-, ho, hl⟩ := allStand_orders hst
  obtain ⟨h', e1', hb⟩ := addAll_eq Ls (newProgram_built e0) fun L hL =>
    ⟨addAll_orders Ls e1 L hL, (hl L hL).2⟩
  obtain rfl : h' = h := by rw [e1] at e1'; simpa using e1'.symm
  rw [List.nil_append] at hb
  obtain ⟨X, hX, -, hs⟩ := maximize_solution hb hr e2 h1
  rw [hX] at e3
  exact solution_program hQ hst (fun r hr => if_pos hr) (assemble_glued e3 ho).1 hs

theorem conexOn_ok {la : LinAlg ℝ} {sol : Solver ℝ} {strict : Bool} {P : Prob ℝ} {K : RawCone}
    {pars : Option Pars} {r : Result ℝ} (h : conexOn la sol strict P K pars P.s = .ok r) :
    ∃ blk p hd o z, (parsOf pars P.s).blkdiag = some blk ∧
      makeProblem la (symmetricFrom ((cleanK K).f + midVars K) (cleanLinear P).2) K blk = .ok p ∧
      build (symmetricFrom ((cleanK K).f + midVars K) (cleanLinear P).2) p = .ok hd ∧
      maximize sol hd p.m p.b = .ok o ∧
      finish la (symmetricFrom ((cleanK K).f + midVars K) (cleanLinear P).2) K p o.2.1 o.2.2 = .ok z ∧
      r = ⟨z.1, recoverDual (cleanLinear P).1 z.2, !o.1, !o.1⟩ ∧
      setOptions strict = .ok () ∧ ∃ e, (parsOf pars P.s).errors = some e ∧ checkErrors P.N e = .ok () := by
  unfold conexOn at h
  obtain ⟨q, hq, h⟩ := bind_eq_ok.1 h
  obtain ⟨blk, hblk, h⟩ := bind_eq_ok.1 h
  obtain ⟨p, hp, h⟩ := bind_eq_ok.1 h
  obtain ⟨hd, hhd, h⟩ := bind_eq_ok.1 h
  obtain ⟨u, hu, h⟩ := bind_eq_ok.1 h
  obtain ⟨o, ho, h⟩ := bind_eq_ok.1 h
  obtain ⟨z, hz, h⟩ := bind_eq_ok.1 h
  obtain ⟨e, he, h⟩ := bind_eq_ok.1 h
  obtain ⟨v, hv, h⟩ := bind_eq_ok.1 h
  have hf : ∀ {v : Option Bool} {b : Bool}, field v = .ok b → v = some b := by
    intro v b h
    cases v <;> simp [field] at h
    rw [h]
  have hq' : q = ((cleanLinear P).1, symmetricFrom ((cleanK K).f + midVars K) (cleanLinear P).2) := by
    unfold setup at hq
    split_ifs at hq
    simpa using hq.symm
  subst hq'
  exact ⟨blk, p, hd, o, z, hf hblk, hp, hhd, ho, hz, by simpa using h.symm, hu, e, hf he, hv⟩

theorem conex_on {la : LinAlg ℝ} {sol : Solver ℝ} {strict : Bool} {P : Prob ℝ} {K : RawCone}
    {pars : Option Pars} {s : List Nat} (hs : K.s = some s) (h0 : s ≠ []) :
    conex la sol strict P K pars = conexOn la sol strict P K pars s := by
  cases s with
  | nil => exact absurd rfl h0
  | cons a l => simp only [conex, hs]

theorem conex_nonempty {la : LinAlg ℝ} {sol : Solver ℝ} {strict : Bool} {P : Prob ℝ} {K : RawCone}
    {pars : Option Pars} {s : List Nat} (hs : K.s = some s) {r : Result ℝ}
    (h : conex la sol strict P K pars = .ok r) : s ≠ [] := by
  rintro rfl
  simp [conex, hs] at h

/-! ### One block -/

theorem recover_range {N : Nat} (x : Nat → ℝ) {t : Nat} (ht : t < N) : recoverPrimal (List.range N) x t = x t := by
  unfold recoverPrimal
  rw [List.length_range]
  have : ((List.range N).map fun j => if (List.range N).getD j 0 = t then x j else 0) =
      (List.range N).map fun j => if j = t then x j else 0 := by
    refine List.map_congr_left fun j hj => ?_
    rw [List.getD_eq_getElem?_getD, List.getElem?_range (List.mem_range.1 hj), Option.getD_some]
  rw [this, show ((List.range N).map fun j => if j = t then x j else 0).sum =
    ∑ j ∈ Finset.range N, if j = t then x j else 0 from rfl]
  rw [Finset.sum_ite_eq' (Finset.range N) t]
  simp [ht]

theorem single_mask {n : Nat} {M : Nat → Bool} {cls : List (List (List Nat))} (h : Masked [n] 0 M cls)
    (hs : maskSizes cls = [n]) : maskIndex [n] 0 cls = List.range (n * n) := by
  cases cls with
  | nil => exact h.elim
  | cons cl cls =>
    cases cls with
    | cons a l => exact h.2.elim
    | nil =>
      have hs : cl.map List.length = [n] := by simpa [maskSizes] using hs
      cases cl with
      | nil => simp at hs
      | cons c l =>
        obtain ⟨hl, hn⟩ : c.length = n ∧ l = [] := by simpa using hs
        subst hn
        have hc : ∀ i, i < n → i ∈ c := by
          intro i hi
          have h1 : c.Nodup := by simpa using h.1.1.nodup
          have h2 : c ⊆ List.range n := fun a ha => List.mem_range.2 (h.1.1.lt c (by simp) a ha)
          have h3 := List.subperm_of_subset h1 h2
          have h4 := h3.perm_of_length_le (by simp [hl])
          exact h4.mem_iff.2 (List.mem_range.2 hi)
        have : (List.range (n * n)).filter (fun k => c.contains (k % n) && c.contains (k / n)) =
            List.range (n * n) := by
          rw [List.filter_eq_self]
          intro k hk
          have hk := List.mem_range.1 hk
          have hn : 0 < n := by
            rcases Nat.eq_zero_or_pos n with h0 | h0
            · subst h0; simp at hk
            · exact h0
          simp [hc _ (Nat.mod_lt k hn), hc _ (Nat.div_lt_of_lt_mul hk)]
        simp only [maskIndex, subMatIndex, List.flatMap_cons, List.flatMap_nil, List.append_nil, this]
        simp

theorem keep_range {m N : Nat} {A : Nat → Nat → ℝ} {b : Nat → ℝ} (h : (eqKeep m N A b).length = m) :
    eqKeep m N A b = List.range m :=
  (List.filter_sublist).eq_of_length (by rw [List.length_range]; exact h)

theorem dense_stands (P : Prob ℝ) (n : Nat) : AllStand P.m P.A P.c [n] 0 [denseLmi P n] := by
  refine ⟨⟨rfl, List.nodup_range, fun v hv => List.mem_range.1 hv, fun y i j _ _ => ?_⟩, trivial⟩
  simp only [denseLmi, List.length_range, Nat.zero_add]
  refine congrArg₂ (· - ·) rfl (Finset.sum_congr rfl fun v hv => ?_)
  have hv := Finset.mem_range.1 hv
  rw [List.getD_eq_getElem?_getD, List.getElem?_range (by exact hv), Option.getD_some]

theorem dense_solution {P : Prob ℝ} {n m : Nat} (hs : P.s = [n]) (hN : P.N = n * n) {h0 h : Handle ℝ}
    (e0 : newProgram m = .ok h0) (e1 : addDense h0 (denseLmi P n) = .ok h) {sol : Solver ℝ} (hr : Right sol)
    {b : Nat → ℝ} {o : Bool × (Nat → ℝ) × List (Nat × (Nat → ℝ))} (e2 : maximize sol h m b = .ok o)
    (h1 : o.1 = true) : m = P.m ∧ ∃ X : Nat → ℝ, o.2.2 = [(n * n, X)] ∧
      ((∀ r < P.m, b r = P.b r) → ∀ x y : Nat → ℝ, (∀ t < n * n, x t = X t) → (∀ i < P.m, y i = o.2.1 i) →
        FreePrimalFeasible P 0 x ∧ FreeDualFeasible P 0 y ∧ primalCost P x = dualCost P y) := by
  obtain ⟨h', e1', hb⟩ := addDense_eq (newProgram_built e0) (addDense_order e1)
  obtain rfl : h' = h := by rw [e1] at e1'; simpa using e1'.symm
  rw [List.nil_append, List.nil_append] at hb
  obtain ⟨X, hX, hm, hsol⟩ := maximize_solution hb hr e2 h1
  have hm : m = P.m := by simpa [denseLmi] using hm
  subst hm
  refine ⟨rfl, X 0, by simpa [denseLmi] using hX, fun hbb x y hx hy => ?_⟩
  have hst := dense_stands P n
  have hlt : ∀ L ∈ [denseLmi P n], ∀ v ∈ L.vars, v < P.m := by
    intro L hL v hv
    obtain rfl : L = denseLmi P n := by simpa using hL
    exact List.mem_range.1 hv
  rw [← hs] at hst
  refine solution_program (by rw [hN, hs]; simp [numVar]) hst (fun r hr => by rw [if_pos hr, hbb r hr]) ?_
    (solution_congr hlt hy hsol)
  rw [hs]
  exact ⟨fun t ht => by rw [Nat.zero_add]; exact hx t ht, trivial⟩

/-! ### Failures -/

/-- The result, if there is one, passes the test. -/
def passes {α : Type} (o : Outcome α) (t : α → Bool) : Bool :=
  match o with
  | .ok a => t a
  | _ => false

theorem passes_ok {α : Type} {o : Outcome α} {t : α → Bool} (h : passes o t = true) : ∃ a, o = .ok a ∧ t a = true := by
  cases o with
  | ok a => exact ⟨a, rfl, h⟩
  | throws => cases h
  | ub => cases h
  | diverges => cases h

/-- Is the outcome an error of MATLAB? -/
def failed {α : Type} (o : Outcome α) : Bool :=
  match o with
  | .throws => true
  | _ => false

theorem failed_iff {α : Type} {o : Outcome α} : failed o = true ↔ o = .throws := by
  cases o <;> simp [failed]

theorem preprocessAt_none (la la' : LinAlg ℚ) (P : Prob ℚ) {K : RawCone} (hf : K.f = none) :
    preprocessAt la P K = preprocessAt la' P K := by
  unfold preprocessAt
  simp only [hf]

/-- An error before the library is called does not depend on what is called later. -/
theorem conex_throws {P : Prob ℚ} {K : RawCone} {a : Nat} {s : List Nat} {e blk : Bool} {pars : Option Pars}
    (hf : K.f = none) (hs : K.s = some (a :: s)) (hp : parsOf pars (a :: s) = ⟨some e, some blk⟩) (la0 : LinAlg ℚ)
    (h : failed (setup { P with s := a :: s } K >>= fun q => makeProblem la0 q.2 K blk >>= fun p =>
      build q.2 p) = true) (la : LinAlg ℚ) (sol : Solver ℚ) (strict : Bool) :
    conex la sol strict P K pars = .throws := by
  rw [failed_iff] at h
  simp only [conex, hs, conexOn, hp, field, Outcome.bind_ok]
  cases hq : setup { P with s := a :: s } K with
  | throws => rfl
  | ub => rw [hq] at h; cases h
  | diverges => rw [hq] at h; cases h
  | ok q =>
    rw [hq, Outcome.bind_ok] at h
    rw [Outcome.bind_ok]
    have : makeProblem la q.2 K blk = makeProblem la0 q.2 K blk := by
      unfold makeProblem
      rw [preprocessAt_none la la0 _ hf]
    rw [this]
    cases hm : makeProblem la0 q.2 K blk with
    | throws => rfl
    | ub => rw [hm] at h; cases h
    | diverges => rw [hm] at h; cases h
    | ok p =>
      rw [hm, Outcome.bind_ok] at h
      rw [Outcome.bind_ok, h]
      rfl

/-- A program with one equation. -/
def oneRow (a : List ℚ) (b : ℚ) (c : List ℚ) : Prob ℚ :=
  { m := 1, N := a.length, A := fun _ j => a.getD j 0, b := fun _ => b, c := fun j => c.getD j 0, s := [] }

/-- A choice of `A\b` and `spnull`. -/
def noLa : LinAlg ℚ := ⟨fun _ _ _ _ _ => 0, fun _ _ _ => (0, fun _ _ => 0)⟩

/-! ### No failure -/

theorem assemble_ok : ∀ {s : List Nat} {off : Nat} {cells : List (Nat × (Nat → ℝ))} {x0 : Nat → ℝ},
    cells.map Prod.fst = (s.map fun n => n * n) → ∃ x, assemble s off cells x0 = .ok x := by
  intro s
  induction s with
  | nil => intro off cells x0 _; exact ⟨x0, rfl⟩
  | cons n ns ih =>
    intro off cells x0 h
    cases cells with
    | nil => simp at h
    | cons c cs =>
      simp only [List.map_cons, List.cons.injEq] at h
      simp only [assemble, h.1, true_or, if_true]
      exact ih h.2

theorem masked_sizes : ∀ {s : List Nat} {off : Nat} {M : Nat → Bool} {cls : List (List (List Nat))},
    Masked s off M cls → ∀ n ∈ maskSizes cls, n ≠ 0 := by
  intro s
  induction s with
  | nil =>
    intro off M cls h n hn
    cases cls with
    | nil => simp [maskSizes] at hn
    | cons a l => exact h.elim
  | cons m ms ih =>
    intro off M cls h n hn
    cases cls with
    | nil => exact h.elim
    | cons cl cls =>
      simp only [maskSizes, List.flatMap_cons, List.mem_append, List.mem_map] at hn
      rcases hn with ⟨c, hc, rfl⟩ | hn
      · intro h0
        exact h.1.1.ne c hc (List.length_eq_zero_iff.1 h0)
      · exact ih h.2 n hn

/-- Only matrices. -/
def onlyS (s : List Nat) : RawCone := ⟨none, none, none, none, some s⟩

theorem setup_onlyS {P : Prob ℝ} (hN : P.N = numVar P.s) (h0 : P.s ≠ []) :
    setup P (onlyS P.s) = .ok ((cleanLinear P).1, symmetricFrom 0 (cleanLinear P).2) := by
  have e1 : ConeBase.numVars (cleanK (onlyS P.s)) = numVar P.s := by
    cases hs : P.s with
    | nil => exact absurd hs h0
    | cons a l => simp [ConeBase.numVars, cleanK, onlyS, ConeBase.cleanScalar, ConeBase.cleanVector]
  unfold setup
  rw [e1, if_neg (by omega)]
  rfl

theorem preprocess_onlyS {P : Prob ℝ} (la : LinAlg ℝ) {s : List Nat} {a b : List Nat} {Q : Prob ℝ}
    (h : blkdiagPrg P = .ok (a, b, Q)) (hQ : Q.s ≠ []) :
    preprocessAt la P (onlyS s) = .ok ((a, b, Q), extract Q) := by
  have : blkdiagPrgAt (onlyS s) P = .ok (a, b, Q) := by
    have e : midVars (onlyS s) = 0 := by simp [midVars, onlyS, cleanK, ConeBase.cleanScalar, ConeBase.cleanVector]
    unfold blkdiagPrgAt
    rw [e, show maskRefuses (cleanK (onlyS s)).q (cleanK (onlyS s)).r = .ok false from rfl]
    simp only [Outcome.bind_ok, Bool.false_eq_true, if_false]
    rw [blkdiagAt_zero]
    exact h
  simp only [preprocessAt, onlyS] at this ⊢
  rw [this]
  simp only [Outcome.bind_ok, extractOut, if_neg hQ]

/-- As `elim_entry`, with two blocks. -/
theorem elim_entry_two {la : LinAlg ℝ} (hn : NullOk la) {P : Prob ℝ} (hm : P.m = 3)
    (hA : ∀ i j, i < 3 → j < 3 → P.A i j = if i = j then 1 else 0) {j : Nat} (hj : j < 2) :
    ∃ i, i < (eliminateFree la P 1).m ∧ symmetrize [1, 1] ((eliminateFree la P 1).A i) j ≠ 0 := by
  have hs : ∀ q, symmetrize [1, 1] ((eliminateFree la P 1).A q) j = (freeBasis la P 1).2 (j + 1) q := by
    intro q
    have hmi : mirror [1, 1] 0 j = j := by
      have : j = 0 ∨ j = 1 := by omega
      rcases this with rfl | rfl <;> rfl
    rw [symmetrize_get _ _ (by exact hj), hmi, elim_A, hm]
    simp only [Finset.sum_range_succ, Finset.sum_range_zero, Nat.zero_add, hA 0 (j + 1) (by omega) (by omega),
      hA 1 (j + 1) (by omega) (by omega), hA 2 (j + 1) (by omega) (by omega)]
    have : j = 0 ∨ j = 1 := by omega
    rcases this with rfl | rfl <;> norm_num
  obtain ⟨w, hw⟩ := (hn 1 P.m (fun j i => P.A i j)).2 (fun i => if i = j + 1 then 1 else 0) (by
    intro i hi
    have : i = 0 := by omega
    subst this
    rw [hm]
    simp [Finset.sum_range_succ, hA]
    intro h
    rw [hA (j + 1) 0 h (by omega), if_neg (by omega)])
  by_contra hno
  push Not at hno
  have h1 := hw (j + 1) (by omega)
  rw [Finset.sum_eq_zero] at h1
  · simp at h1
  · intro q hq
    have := hno q (Finset.mem_range.1 hq)
    rw [hs] at this
    exact mul_eq_zero_of_left this _

end Verif.Matlab
