import Verif.Lemmas.MatlabRunSound

/-!
# Properties of the MATLAB function `conex` as a whole (C85)
-/

namespace Verif.Matlab

open Spec
open SolveLoop (bind_eq_ok)
open Verif.ConeBase (RawCone cleanK)
open scoped BigOperators

/-- If `conex` returns and does not report a failure, then `x` and `y` solve the program and its dual; the library
must be right, there are no free variables and no cones but the matrices, and with more than one block every entry
with a cost must occur in some equation.  Missing: costs of other entries (see `C65_violated`), and the cones that
`conex` lets pass (see `C85_lorentz_violated`). -/
theorem C85_sound_partial (la : LinAlg ℝ) (sol : Solver ℝ) (hr : Right sol) (strict : Bool) (P : Prob ℝ)
    (K : RawCone) (pars : Option Pars) (hs : K.s = some P.s) (hf : (cleanK K).f = 0) (ho : OnlyMatrices K)
    (hN : P.N = numVar P.s)
    (hc : 1 < P.s.length → ∀ j, j < P.N → symmetrize P.s P.c j ≠ 0 →
      ∃ i, i < P.m ∧ symmetrize P.s (P.A i) j ≠ 0)
    {r : Result ℝ} (h : conex la sol strict P K pars = .ok r) (hp : r.pinf = false) : Optimal P 0 r.x r.y := by
  have hm := midVars_zero ho
  rw [conex_on hs (conex_nonempty hs h)] at h
  obtain ⟨blk, p, hd, o, z, -, h1, h2, h3, h4, rfl, -⟩ := conexOn_ok h
  have ho : o.1 = true := by simpa using hp
  rw [hf, hm] at h1 h2 h4
  simp only [Nat.add_zero] at h1 h2 h4
  set P1 := symmetricFrom 0 (cleanLinear P).2 with hP1
  have hs1 : P1.s = P.s := rfl
  have hN1 : P1.N = numVar P1.s := hN
  unfold build at h2
  obtain ⟨h0, e0, h2⟩ := bind_eq_ok.1 h2
  have fP : FreeFaithful P 0 P1 0 0 id (recoverDual (cleanLinear P).1) := by
    exact ((faithful_clean P hN).trans (faithful_symmetric (cleanLinear P).2 hN)).free
  by_cases hl : 1 < P1.s.length
  · rw [if_pos hl] at h2
    cases blk with
    | false =>
      simp only [makeProblem, Bool.false_eq_true, if_false, Outcome.ok.injEq] at h1
      subst h1
      cases h2
    | true =>
      simp only [makeProblem, if_true] at h1
      obtain ⟨⟨⟨indx, keep, Q⟩, Ls⟩, e1, h1⟩ := bind_eq_ok.1 h1
      simp only [Outcome.ok.injEq] at h1
      subst h1
      obtain ⟨e2, -, e3, e4⟩ := preprocessAt_zero hm e1
      have hkf : K.f = none := by
        rcases e4 with e4 | e4
        · exact e4
        · omega
      rw [hkf, Option.map_none] at e2
      obtain ⟨hQ, hst⟩ := preprocess_stands e2 (by simpa using hN1)
      obtain ⟨rows, P1', indx', keep', Q', Ls', g1, g2, -⟩ := C67_blocks_partial la P hN (hc hl)
      have : conexPre la P none = .ok ((cleanLinear P).1, P1, (indx, keep, Q), Ls) := by
        simp only [conexPre, Option.getD_none, ← hP1, e2, Outcome.bind_ok]
      rw [this] at g1
      obtain ⟨rfl, rfl, ⟨rfl, rfl, rfl⟩, rfl⟩ : (cleanLinear P).1 = rows ∧ P1 = P1' ∧
        (indx = indx' ∧ keep = keep' ∧ Q = Q') ∧ Ls = Ls' := by simpa using g1
      unfold finish at h4
      obtain ⟨x, e5, h4⟩ := bind_eq_ok.1 h4
      simp only [Outcome.ok.injEq] at h4
      obtain ⟨a1, a2, a3⟩ := sparse_solution hQ hst e0 h2 hr h3 ho e5
      have := g2.optimal (by simpa using hN) a1 a2 a3
      rw [← h4, hkf]
      exact this
  · rw [if_neg hl] at h2
    cases blk with
    | false =>
      simp only [makeProblem, Bool.false_eq_true, if_false, Outcome.ok.injEq] at h1
      subst h1
      dsimp only at h2 e0 h3 h4
      cases hsl : P1.s with
      | nil => rw [hsl] at h2; cases h2
      | cons n ns =>
        have hns : ns = [] := by
          rw [hsl] at hl
          simp only [List.length_cons] at hl
          exact List.length_eq_zero_iff.1 (by omega)
        subst hns
        rw [hsl] at h2
        dsimp only at h2
        by_cases hnn : P1.N = n * n
        · rw [if_pos hnn] at h2
          obtain ⟨-, X, hX, hall⟩ := dense_solution hsl hnn e0 h2 hr h3 ho
          simp only [finish, hX, Outcome.ok.injEq] at h4
          subst h4
          obtain ⟨a1, a2, a3⟩ := hall (fun _ _ => rfl) X o.2.1 (fun _ _ => rfl) fun _ _ => rfl
          exact fP.optimal (by simpa using hN) a1 a2 a3
        · rw [if_neg hnn] at h2
          cases h2
    | true =>
      simp only [makeProblem, if_true] at h1
      obtain ⟨⟨⟨indx, keep, Q⟩, Ls⟩, e1, h1⟩ := bind_eq_ok.1 h1
      simp only [Outcome.ok.injEq] at h1
      subst h1
      obtain ⟨e2, -, e3, e4⟩ := preprocessAt_zero hm e1
      have hkf : K.f = none := by
        rcases e4 with e4 | e4
        · exact e4
        · omega
      rw [hkf, Option.map_none] at e2
      obtain ⟨M, cls, L, M0, b1, b2⟩ := buildMask_ok (symmetric P1) (symmetric_ok P1 hN1)
      have hM : Masked P1.s 0 M cls := b2.masked
      have b3 : blkdiagPrg P1 = _ := blkdiag_eq b1
      simp only [preprocess, b3, Outcome.bind_ok, Outcome.ok.injEq, Prod.mk.injEq] at e2
      obtain ⟨⟨rfl, rfl, rfl⟩, rfl⟩ := e2
      dsimp only at h2 e0 h3 h4
      have hsn : ∃ n, P1.s = [n] := by
        cases hsl : P1.s with
        | nil =>
          rw [hsl] at hM
          cases cls with
          | nil => cases h2
          | cons a l => exact hM.elim
        | cons n ns =>
          rw [hsl] at hl
          simp only [List.length_cons] at hl
          exact ⟨n, by rw [List.length_eq_zero_iff.1 (show ns.length = 0 by omega)]⟩
      obtain ⟨n, hsn⟩ := hsn
      have hNn : P1.N = n * n := by rw [hN1, hsn]; simp [numVar]
      have hsz : (cleanLinear (restrict (symmetric P1) (maskIndex (symmetric P1).s 0 cls) (maskSizes cls))).2.s =
        maskSizes cls := rfl
      rw [hsz] at h2 h4
      cases hsl : maskSizes cls with
      | nil => rw [hsl] at h2; cases h2
      | cons n' ns =>
        rw [hsl] at h2 h4
        dsimp only at h2
        by_cases hnn : P1.N = n' * n'
        · rw [if_pos hnn] at h2
          have hn' : n' = n := by
            have : n' * n' = n * n := hnn ▸ hNn
            exact Nat.mul_self_inj.1 this
          subst hn'
          obtain ⟨hmm, X, hX, hall⟩ := dense_solution hsn hNn e0 h2 hr h3 ho
          unfold finish at h4
          obtain ⟨x, e5, h4⟩ := bind_eq_ok.1 h4
          rw [hX] at e5
          have hns : ns = [] := by
            cases ns with
            | nil => rfl
            | cons a l =>
              simp only [assemble, true_or, if_true] at e5
              cases e5
          subst hns
          have hi : maskIndex (symmetric P1).s 0 cls = List.range (n' * n') := by
            show maskIndex P1.s 0 cls = _
            rw [hsn] at hM ⊢
            exact single_mask hM hsl
          have hk : (cleanLinear (restrict (symmetric P1) (maskIndex (symmetric P1).s 0 cls) (maskSizes cls))).1 =
            List.range P1.m := keep_range hmm
          have hb : ∀ r < P1.m, (cleanLinear (restrict (symmetric P1) (maskIndex (symmetric P1).s 0 cls)
              (maskSizes cls))).2.b r = P1.b r := by
            intro r hr'
            show P1.b ((cleanLinear (restrict (symmetric P1) (maskIndex (symmetric P1).s 0 cls)
              (maskSizes cls))).1.getD r 0) = _
            rw [hk, List.getD_eq_getElem?_getD, List.getElem?_range hr', Option.getD_some]
          have hx : ∀ t < n' * n', x t = X t := by
            intro t ht
            simp only [assemble, true_or, if_true, Outcome.ok.injEq] at e5
            rw [← e5]
            simp [ht]
          simp only [postprocess, hkf, Option.map_none, Option.getD_none, Nat.lt_irrefl, if_false,
            Outcome.ok.injEq] at h4
          obtain ⟨a1, a2, a3⟩ := hall hb z.1 z.2 (fun t ht => by
              rw [← h4]
              dsimp only
              rw [hi, recover_range x ht, hx t ht]) (fun i hi' => by
              rw [← h4]
              dsimp only
              rw [hsl] at hk
              rw [hk]
              exact recover_range o.2.1 hi')
          exact fP.optimal (by simpa using hN) a1 a2 a3
        · rw [if_neg hnn] at h2
          cases h2

/-- Two blocks, of the orders 1 and 2, and one equation: the trace is 1. -/
def traceSample : Prob ℝ :=
  { m := 1, N := 5, A := fun _ j => if j = 0 ∨ j = 1 ∨ j = 4 then 1 else 0, b := fun _ => 1
    c := fun j => if j = 0 then 1 else 0, s := [1, 2] }

theorem traceSample_cost : (∃ j < traceSample.N, symmetrize traceSample.s traceSample.c j ≠ 0) ∧
    ∀ j, j < traceSample.N → symmetrize traceSample.s traceSample.c j ≠ 0 →
      ∃ i, i < traceSample.m ∧ symmetrize traceSample.s (traceSample.A i) j ≠ 0 := by
  have e : ∀ (x : Nat → ℝ), symmetrize [1, 2] x 0 = (x 0 + x 0) / 2 := fun x =>
    symmetrize_get [1, 2] x (k := 0) (by decide)
  have hc : ∀ j, 0 < j → j < 5 → symmetrize [1, 2] traceSample.c j = 0 := by
    intro j h1 h2
    rw [symmetrize_get _ _ (by exact h2)]
    have hm := mirror_range [1, 2] 0 j (by omega) (by exact h2)
    have : traceSample.c j = 0 := if_neg (by omega)
    have h3 : mirror [1, 2] 0 j ≠ 0 := by
      have : j = 1 ∨ j = 2 ∨ j = 3 ∨ j = 4 := by omega
      rcases this with rfl | rfl | rfl | rfl <;> decide
    have h4 : traceSample.c (mirror [1, 2] 0 j) = 0 := if_neg h3
    rw [this, h4]
    simp
  refine ⟨⟨0, by decide, ?_⟩, ?_⟩
  · show symmetrize [1, 2] traceSample.c 0 ≠ 0
    rw [e]
    simp [traceSample]
  · intro j hj h
    have : j = 0 := by
      by_contra h0
      exact h (hc j (by omega) hj)
    subst this
    refine ⟨0, by decide, ?_⟩
    show symmetrize [1, 2] (traceSample.A 0) 0 ≠ 0
    rw [e]
    simp [traceSample]

example : (onlyS traceSample.s).s = some traceSample.s ∧ (cleanK (onlyS traceSample.s)).f = 0 ∧
    OnlyMatrices (onlyS traceSample.s) ∧ traceSample.N = numVar traceSample.s ∧ 1 < traceSample.s.length :=
  ⟨rfl, rfl, by simp [OnlyMatrices, onlyS], rfl, by decide⟩

/-- There is a library that is right and succeeds whenever there is something to be found. -/
example : ∃ sol : Solver ℝ, Right sol ∧ ∀ m Ls b, (∃ y X, LmiSolution m Ls b y X) → (sol m Ls b).1 = true := by
  classical
  refine ⟨fun m Ls b => if h : ∃ y X, LmiSolution m Ls b y X then (true, h.choose, h.choose_spec.choose)
    else (false, fun _ => 0, fun _ _ => 0), fun m Ls b h => ?_, fun m Ls b h => by simp [h]⟩
  by_cases hx : ∃ y X, LmiSolution m Ls b y X
  · simp only [hx, dite_true]
    exact hx.choose_spec.choose_spec
  · simp [hx] at h

/-- `conex` with one free variable and more than one block; what is asked is what `C67_one_free_partial` asks. -/
theorem C85_free_partial (la : LinAlg ℝ) (hsolve : SolveOk la) (hnull : NullOk la) (sol : Solver ℝ) (hr : Right sol)
    (strict : Bool) (P : Prob ℝ) (K : RawCone) (pars : Option Pars) (hs : K.s = some P.s) (hf : (cleanK K).f = 1)
    (ho : OnlyMatrices K) (hN : P.N = 1 + numVar P.s) (hl : 1 < P.s.length)
    (hcons : ∃ y : Nat → ℝ, ∀ j < 1, ∑ i ∈ Finset.range P.m, P.A i j * y i = P.c j)
    (hc : ∀ j, j < numVar P.s →
      symmetrize P.s (eliminateFree la (symmetricFrom 1 (cleanLinear P).2) 1).c j ≠ 0 →
      ∃ i, i < (eliminateFree la (symmetricFrom 1 (cleanLinear P).2) 1).m ∧
        symmetrize P.s ((eliminateFree la (symmetricFrom 1 (cleanLinear P).2) 1).A i) j ≠ 0)
    {r : Result ℝ} (h : conex la sol strict P K pars = .ok r) (hp : r.pinf = false) : Optimal P 1 r.x r.y := by
  have hm := midVars_zero ho
  rw [conex_on hs (conex_nonempty hs h)] at h
  obtain ⟨blk, p, hd, o, z, -, h1, h2, h3, h4, rfl, -⟩ := conexOn_ok h
  have ho : o.1 = true := by simpa using hp
  rw [hf, hm] at h1 h2 h4
  simp only [Nat.add_zero] at h1 h2 h4
  set P1 := symmetricFrom 1 (cleanLinear P).2 with hP1
  have hN1 : P1.N = 1 + numVar P1.s := hN
  unfold build at h2
  obtain ⟨h0, e0, h2⟩ := bind_eq_ok.1 h2
  rw [if_pos (show 1 < P1.s.length from hl)] at h2
  cases blk with
  | false =>
    simp only [makeProblem, Bool.false_eq_true, if_false, Outcome.ok.injEq] at h1
    subst h1
    cases h2
  | true =>
    simp only [makeProblem, if_true] at h1
    obtain ⟨⟨⟨indx, keep, Q⟩, Ls⟩, e1, h1⟩ := bind_eq_ok.1 h1
    simp only [Outcome.ok.injEq] at h1
    subst h1
    obtain ⟨e2, -, e3, e4⟩ := preprocessAt_zero hm e1
    have hkf : (K.f.map fun v => v.getD 0) = some 1 := by
      cases hk : K.f with
      | none => rw [hf, hk] at e3; simp at e3
      | some v => rw [hf, hk] at e3; simpa using e3.symm
    rw [hkf] at e2
    obtain ⟨hQ, hst⟩ := preprocess_stands e2 (by simpa using hN1)
    obtain ⟨rows, P1', indx', keep', Q', Ls', shift, g1, g2, -⟩ :=
      C67_one_free_partial la hsolve hnull P hN hcons hc
    have : conexPre la P (some 1) = .ok ((cleanLinear P).1, P1, (indx, keep, Q), Ls) := by
      simp only [conexPre, Option.getD_some, ← hP1, e2, Outcome.bind_ok]
    rw [this] at g1
    obtain ⟨rfl, rfl, ⟨rfl, rfl, rfl⟩, rfl⟩ : (cleanLinear P).1 = rows ∧ P1 = P1' ∧
      (indx = indx' ∧ keep = keep' ∧ Q = Q') ∧ Ls = Ls' := by simpa using g1
    unfold finish at h4
    obtain ⟨x, e5, h4⟩ := bind_eq_ok.1 h4
    simp only [Outcome.ok.injEq] at h4
    obtain ⟨a1, a2, a3⟩ := sparse_solution hQ hst e0 h2 hr h3 ho e5
    have := g2.optimal hN a1 a2 a3
    rw [← h4, hkf]
    exact this

/-- A free variable and two blocks of order 1, each of them equal to 1. -/
def freeTwo : Prob ℝ :=
  { m := 3, N := 3, A := fun i j => if i = j then 1 else 0, b := fun _ => 1, c := fun j => if j = 1 then 0 else 1
    s := [1, 1] }

example (la : LinAlg ℝ) (hn : NullOk la) : (cleanK ⟨some (some 1), none, none, none, some freeTwo.s⟩).f = 1 ∧
    OnlyMatrices ⟨some (some 1), none, none, none, some freeTwo.s⟩ ∧ freeTwo.N = 1 + numVar freeTwo.s ∧
    1 < freeTwo.s.length ∧
    (∃ y : Nat → ℝ, ∀ j < 1, ∑ i ∈ Finset.range freeTwo.m, freeTwo.A i j * y i = freeTwo.c j) ∧
    (∀ j, j < numVar freeTwo.s →
      symmetrize freeTwo.s (eliminateFree la (symmetricFrom 1 (cleanLinear freeTwo).2) 1).c j ≠ 0 →
      ∃ i, i < (eliminateFree la (symmetricFrom 1 (cleanLinear freeTwo).2) 1).m ∧
        symmetrize freeTwo.s ((eliminateFree la (symmetricFrom 1 (cleanLinear freeTwo).2) 1).A i) j ≠ 0) := by
  refine ⟨rfl, by simp [OnlyMatrices], rfl, by decide, ⟨fun _ => 1, fun j hj => ?_⟩, fun j hj _ => ?_⟩
  · have : j = 0 := by omega
    subst this
    simp [freeTwo]
  · have hk : eqKeep 3 3 freeTwo.A freeTwo.b = [0, 1, 2] := by
      simp [eqKeep, freeTwo, List.range_succ]
    refine elim_entry_two hn ?_ (fun i j hi hj => ?_) hj
    · show (eqKeep 3 3 freeTwo.A freeTwo.b).length = 3
      rw [hk]
      rfl
    · show symmetrizeFrom 1 [1, 1] (freeTwo.A ((eqKeep 3 3 freeTwo.A freeTwo.b).getD i 0)) j = _
      rw [hk]
      have hi : i = 0 ∨ i = 1 ∨ i = 2 := by omega
      have hj : j = 0 ∨ j = 1 ∨ j = 2 := by omega
      rcases hi with rfl | rfl | rfl <;> rcases hj with rfl | rfl | rfl <;>
        simp [symmetrizeFrom, freeTwo, assign, show lowerUpper 1 [1, 1] = [(1, 1), (2, 2)] by decide]

/-- With the defaults, and if the assignment of `max_iteration` is not an error, `conex` returns for every cone with
one block that is not empty, and for every cone with several blocks if some entry has a cost and every entry with
a cost occurs in some equation.  Both `pinf` and `dinf` are what the library reports. -/
theorem C85_runs (la : LinAlg ℝ) (sol : Solver ℝ) (P : Prob ℝ) (hN : P.N = numVar P.s) (h0 : P.s ≠ [])
    (hm : P.m < 2 ^ 31) (h1 : ∀ n, P.s = [n] → n ≠ 0)
    (hc : 1 < P.s.length → (∃ j < P.N, symmetrize P.s P.c j ≠ 0) ∧ ∀ j, j < P.N → symmetrize P.s P.c j ≠ 0 →
      ∃ i, i < P.m ∧ symmetrize P.s (P.A i) j ≠ 0) :
    ∃ r, conex la sol false P (onlyS P.s) none = .ok r ∧ r.dinf = r.pinf := by
  rw [conex_on rfl h0]
  set P1 := symmetricFrom 0 (cleanLinear P).2 with hP1
  have hN1 : P1.N = numVar P1.s := hN
  have hm1 : P1.m ≤ P.m := by
    show (eqKeep P.m P.N P.A P.b).length ≤ P.m
    exact (List.length_filter_le _ _).trans (by simp)
  have hset := setup_onlyS hN h0
  rw [← hP1] at hset
  unfold conexOn
  rw [show ({ P with s := P.s } : Prob ℝ) = P from rfl, hset]
  simp only [Outcome.bind_ok, parsOf, Option.getD_none, field]
  have hfin : ∀ (p : Problem ℝ) (hd : Handle ℝ) (o : Bool × (Nat → ℝ) × List (Nat × (Nat → ℝ))),
      makeProblem la P1 (onlyS P.s) (decide (1 < P.s.length)) = .ok p →
      build P1 p = .ok hd → maximize sol hd p.m p.b = .ok o →
      (∃ z, finish la P1 (onlyS P.s) p o.2.1 o.2.2 = .ok z) →
      ∃ r, (do
        let p ← makeProblem la P1 (onlyS P.s) (decide (1 < P.s.length))
        let h ← build P1 p
        let _ ← setOptions false
        let o ← maximize sol h p.m p.b
        let z ← finish la P1 (onlyS P.s) p o.2.1 o.2.2
        let _ ← checkErrors P.N false
        Outcome.ok (⟨z.1, recoverDual (cleanLinear P).1 z.2, !o.1, !o.1⟩ : Result ℝ)) = .ok r ∧
        r.dinf = r.pinf := by
    rintro p hd o a1 a2 a3 ⟨z, a4⟩
    have b1 : setOptions false = .ok () := rfl
    have b2 : checkErrors P.N false = .ok () := rfl
    rw [a1]
    simp only [Outcome.bind_ok, a2, a3, a4, b1, b2]
    exact ⟨_, rfl, rfl⟩
  by_cases hl : 1 < P.s.length
  · obtain ⟨⟨j, hj, hcj⟩, hcc⟩ := hc hl
    have hc1 : ∀ j, j < (symmetric P1).N → (symmetric P1).c j ≠ 0 →
        ∃ i, i < (symmetric P1).m ∧ (symmetric P1).A i j ≠ 0 := clean_costs P hN hcc
    obtain ⟨M, cls, L, M0, b1, b2, b3, b4⟩ := buildMask_closed (symmetric P1) (symmetric_ok P1 hN1) hc1
    have hM : Masked (symmetric P1).s 0 M cls := b2.masked
    have b5 : blkdiagPrg P1 = _ := blkdiag_eq b1
    set Q := (cleanLinear (restrict (symmetric P1) (maskIndex (symmetric P1).s 0 cls) (maskSizes cls))).2 with hQ
    have hQN : Q.N = numVar Q.s := restrict_dim hM
    have hjM : M j = true := b4 j hj (by
      have : (symmetric P1).c j = symmetrize P.s P.c j := symmetrize_idem P.s P.c (hN ▸ hj)
      rw [this]
      exact hcj)
    have hjm := (maskIndex_mem hM j).2 ⟨by omega, by rw [Nat.zero_add]; exact hN ▸ hj, hjM⟩
    have hQs : Q.s ≠ [] := by
      intro hnil
      have : Q.N = 0 := by rw [hQN, hnil]; rfl
      have : (maskIndex (symmetric P1).s 0 cls).length = 0 := this
      rw [List.length_eq_zero_iff.1 this] at hjm
      simp at hjm
    have hpre := preprocess_onlyS la (s := P.s) b5 hQs
    obtain ⟨-, hst⟩ := preprocess_stands (la := la) (P := P1) (kf := none) (rc := true)
      (r := ((_, _, Q), extract Q)) (by simp only [preprocess, b5, Outcome.bind_ok]; rfl) (by simpa using hN1)
    obtain ⟨hlen, hord, hall⟩ := allStand_orders hst
    have hQm : Q.m ≤ P1.m := by
      show (eqKeep _ _ _ _).length ≤ P1.m
      exact (List.length_filter_le _ _).trans (by simp [restrict, symmetric])
    obtain ⟨hd0, e0⟩ := newProgram_ok (R := ℝ) (m := Q.m) (Nat.lt_of_le_of_lt (hQm.trans hm1) hm)
    obtain ⟨hd, e1, hb⟩ := addAll_eq (extract Q) (newProgram_built e0) fun L hL =>
      ⟨masked_sizes hM _ (hall L hL).1, (hall L hL).2⟩
    rw [List.nil_append, List.nil_append] at hb
    have e2 := maximize_eq hb sol Q.b
    rw [if_neg (by simp)] at e2
    obtain ⟨x, e3⟩ := assemble_ok (s := Q.s) (off := 0) (x0 := fun _ => 0) (cells := (extract Q).mapIdx fun k L =>
      (L.n * L.n, (sol Q.m (extract Q) fun i => if i < Q.m then Q.b i else 0).2.2 k)) (by
        apply List.ext_getElem
        · simpa using hlen
        · intro i i1 i2
          simp only [List.length_map, List.length_mapIdx] at i1 i2
          have := hord i Q.s[i] (extract Q)[i] (List.getElem?_eq_getElem i2) (List.getElem?_eq_getElem i1)
          simp [this])
    refine hfin ⟨Q.m, Q.b, Q.s, some ((maskIndex (symmetric P1).s 0 cls,
      (cleanLinear (restrict (symmetric P1) (maskIndex (symmetric P1).s 0 cls) (maskSizes cls))).1, Q), extract Q)⟩
      hd _ ?_ ?_ e2 ?_
    · simp only [hl, decide_true, makeProblem, if_true, hpre, Outcome.bind_ok]
    · unfold build
      rw [e0]
      simp only [Outcome.bind_ok]
      rw [if_pos (show 1 < P1.s.length from hl)]
      exact e1
    · simp only [finish, e3, Outcome.bind_ok]
      exact ⟨_, rfl⟩
  · cases hsl : P.s with
    | nil => exact absurd hsl h0
    | cons n ns =>
      have hns : ns = [] := by
        rw [hsl] at hl
        simp only [List.length_cons] at hl
        exact List.length_eq_zero_iff.1 (by omega)
      subst hns
      obtain ⟨hd0, e0⟩ := newProgram_ok (R := ℝ) (m := P1.m) (Nat.lt_of_le_of_lt hm1 hm)
      obtain ⟨hd, e1, hb⟩ := addDense_eq (newProgram_built e0) (L := denseLmi P1 n) (h1 n hsl)
      rw [List.nil_append, List.nil_append] at hb
      have e2 := maximize_eq hb sol P1.b
      rw [if_neg (by simp [denseLmi])] at e2
      rw [← hsl]
      refine hfin ⟨P1.m, P1.b, P1.s, none⟩ hd _ ?_ ?_ e2 ?_
      · simp [makeProblem, hl]
      · unfold build
        rw [e0]
        simp only [Outcome.bind_ok]
        rw [if_neg (show ¬ 1 < P1.s.length from hl)]
        have hs1 : P1.s = [n] := hsl
        have hnn : P1.N = n * n := by rw [hN1, hs1]; simp [numVar]
        simp only [hs1, if_pos hnn]
        exact e1
      · exact ⟨_, rfl⟩

example : traceSample.N = numVar traceSample.s ∧ traceSample.s ≠ [] ∧ traceSample.m < 2 ^ 31 ∧
    (∀ n, traceSample.s = [n] → n ≠ 0) ∧
    (1 < traceSample.s.length → (∃ j < traceSample.N, symmetrize traceSample.s traceSample.c j ≠ 0) ∧
      ∀ j, j < traceSample.N → symmetrize traceSample.s traceSample.c j ≠ 0 →
        ∃ i, i < traceSample.m ∧ symmetrize traceSample.s (traceSample.A i) j ≠ 0) :=
  ⟨rfl, by simp [traceSample], by norm_num [traceSample], by simp [traceSample], fun _ => traceSample_cost⟩

/-! ### Failures -/

/-- `max_iteration` is not a field of the structure of options: if MATLAB refuses to assign it, `conex` never
returns. -/
theorem C85_options_violated (la : LinAlg ℝ) (sol : Solver ℝ) (P : Prob ℝ) (K : RawCone) (hs : K.s = some P.s)
    (pars : Option Pars) (r : Result ℝ) : conex la sol true P K pars ≠ .ok r := by
  intro h
  rw [conex_on hs (conex_nonempty hs h)] at h
  obtain ⟨-, -, -, -, -, -, -, -, -, -, -, h, -⟩ := conexOn_ok h
  rw [show setOptions true = .throws by decide] at h
  cases h

example : (onlyS traceSample.s).s = some traceSample.s := rfl

/-- `max_iterations`, one letter longer, is a field. -/
theorem C85_option_name : "max_iteration" ∈ assignedFields ∧ "max_iteration" ∉ structFields ∧
    "max_iterations" ∈ structFields := by
  decide

/-- With `pars.errors`, `conex` never returns, unless there is only one variable. -/
theorem C85_errors_violated (la : LinAlg ℝ) (sol : Solver ℝ) (strict : Bool) (P : Prob ℝ) (K : RawCone)
    (hs : K.s = some P.s) (blk : Option Bool) (hN : P.N ≠ 1) (r : Result ℝ) :
    conex la sol strict P K (some ⟨some true, blk⟩) ≠ .ok r := by
  intro h
  rw [conex_on hs (conex_nonempty hs h)] at h
  obtain ⟨-, -, -, -, -, -, -, -, -, -, -, -, e, he, h⟩ := conexOn_ok h
  obtain rfl : e = true := by simpa [parsOf] using he.symm
  have : checkErrors P.N true = .throws := by simp [checkErrors, hN]
  rw [this] at h
  cases h

example : traceSample.N ≠ 1 := by decide

/-- If `pars` is given then both its fields must be there. -/
theorem C85_pars_violated (la : LinAlg ℝ) (sol : Solver ℝ) (strict : Bool) (P : Prob ℝ) (K : RawCone)
    (hs : K.s = some P.s) (pars : Pars) (h0 : pars.errors = none ∨ pars.blkdiag = none) (r : Result ℝ) :
    conex la sol strict P K (some pars) ≠ .ok r := by
  intro h
  rw [conex_on hs (conex_nonempty hs h)] at h
  obtain ⟨blk, -, -, -, -, h1, -, -, -, -, -, -, e, he, -⟩ := conexOn_ok h
  simp only [parsOf, Option.getD_some] at h1 he
  rcases h0 with h0 | h0
  · rw [h0] at he; cases he
  · rw [h0] at h1; cases h1

example : (Pars.mk none (some true)).errors = none ∨ (Pars.mk none (some true)).blkdiag = none := .inl rfl

/-- Without `pars.blkdiag`, `conex` never returns if there is more than one block. -/
theorem C85_noblk_violated (la : LinAlg ℝ) (sol : Solver ℝ) (strict : Bool) (P : Prob ℝ) (K : RawCone)
    (hs : K.s = some P.s) (e : Option Bool) (hl : 1 < P.s.length) (r : Result ℝ) :
    conex la sol strict P K (some ⟨e, some false⟩) ≠ .ok r := by
  intro h
  rw [conex_on hs (conex_nonempty hs h)] at h
  obtain ⟨blk, p, hd, -, -, h1, h2, h3, -⟩ := conexOn_ok h
  obtain rfl : blk = false := by simpa [parsOf] using h1.symm
  simp only [makeProblem, Bool.false_eq_true, if_false, Outcome.ok.injEq] at h2
  subst h2
  unfold build at h3
  obtain ⟨h0, -, h3⟩ := bind_eq_ok.1 h3
  rw [if_pos (by exact hl)] at h3
  cases h3

example : 1 < traceSample.s.length := by decide

/-- With more than one block `conex` never returns if `K.f` is given and is not 1, as in `K.f = 0`. -/
theorem C85_free_violated (la : LinAlg ℝ) (sol : Solver ℝ) (strict : Bool) (P : Prob ℝ) (K : RawCone)
    (hs : K.s = some P.s) (pars : Option Pars) (hl : 1 < P.s.length) {v : Option Nat} (hf : K.f = some v)
    (hv : v.getD 0 ≠ 1) (r : Result ℝ) : conex la sol strict P K pars ≠ .ok r := by
  intro h
  have h' := h
  rw [conex_on hs (conex_nonempty hs h)] at h
  obtain ⟨blk, p, hd, -, -, h1, h2, h3, -⟩ := conexOn_ok h
  cases blk with
  | true =>
    simp only [makeProblem, if_true] at h2
    obtain ⟨a, h2, -⟩ := bind_eq_ok.1 h2
    unfold preprocessAt at h2
    simp only [hf] at h2
    rw [if_pos (by exact hv)] at h2
    cases h2
  | false =>
    simp only [makeProblem, Bool.false_eq_true, if_false, Outcome.ok.injEq] at h2
    subst h2
    unfold build at h3
    obtain ⟨h0, -, h3⟩ := bind_eq_ok.1 h3
    rw [if_pos (by exact hl)] at h3
    cases h3

example : (some 0 : Option Nat).getD 0 ≠ 1 := by decide

/-- With free variables and one block `conex` never returns. -/
theorem C85_free_block_violated (la : LinAlg ℝ) (sol : Solver ℝ) (strict : Bool) (P : Prob ℝ) (K : RawCone)
    (hs : K.s = some P.s) (pars : Option Pars) {n : Nat} (hn : P.s = [n]) (h0 : 0 < n) (ho : OnlyMatrices K)
    (hf : 0 < (cleanK K).f) (hN : P.N = (cleanK K).f + n * n) (r : Result ℝ) :
    conex la sol strict P K pars ≠ .ok r := by
  intro h
  have hm := midVars_zero ho
  rw [conex_on hs (conex_nonempty hs h)] at h
  obtain ⟨blk, p, hd, -, -, h1, h2, h3, -⟩ := conexOn_ok h
  unfold build at h3
  obtain ⟨hd0, -, h3⟩ := bind_eq_ok.1 h3
  rw [if_neg (by show ¬ 1 < P.s.length; rw [hn]; simp)] at h3
  have hP1N : (symmetricFrom ((cleanK K).f + midVars K) (cleanLinear P).2).N = P.N := rfl
  rw [hP1N] at h3
  cases blk with
  | true =>
    simp only [makeProblem, if_true] at h2
    obtain ⟨a, h2, h4⟩ := bind_eq_ok.1 h2
    obtain ⟨-, -, e1, e2⟩ := preprocessAt_zero hm h2
    have hf1 : (cleanK K).f = 1 := by
      rcases e2 with e2 | e2
      · rw [e2] at e1
        simp at e1
        omega
      · exact e2
    cases hps : p.s with
    | nil => rw [hps] at h3; cases h3
    | cons k ks =>
      rw [hps] at h3
      dsimp only at h3
      by_cases hk : P.N = k * k
      · rw [hN, hf1] at hk
        have h5 : n < k := Nat.mul_self_lt_mul_self_iff.1 (by omega)
        have h6 : (n + 1) * (n + 1) ≤ k * k := Nat.mul_self_le_mul_self h5
        have h7 : (n + 1) * (n + 1) = n * n + 2 * n + 1 := by ring
        omega
      · rw [if_neg hk] at h3
        cases h3
  | false =>
    simp only [makeProblem, Bool.false_eq_true, if_false, Outcome.ok.injEq] at h2
    subst h2
    have : (symmetricFrom ((cleanK K).f + midVars K) (cleanLinear P).2).s = [n] := hn
    simp only [this] at h3
    rw [if_neg (by omega)] at h3
    cases h3

example : OnlyMatrices ⟨some (some 2), none, none, none, some [3]⟩ ∧
    (cleanK ⟨some (some 2), none, none, none, some [3]⟩).f = 2 := by simp [OnlyMatrices, cleanK, ConeBase.cleanScalar]

/-- One block of order 2, given with `pars.blkdiag`, in which only one entry is used: minimise `x₁₁` such that
`x₁₁ = 1`.  The preprocessing makes it a block of order 1, and `reshape` fails. -/
theorem C85_single_violated (la : LinAlg ℚ) (sol : Solver ℚ) (strict : Bool) :
    conex la sol strict (oneRow [1, 0, 0, 0] 1 [1, 0, 0, 0]) (onlyS [2]) (some ⟨some false, some true⟩) = .throws :=
  conex_throws rfl rfl rfl noLa (by decide +kernel) la sol strict

/-- Without costs and with `b = 0` the mask is empty, and no constraints are returned: `x₁ - x₂ = 0` over two
blocks of order 1. -/
theorem C85_empty_violated (la : LinAlg ℚ) (sol : Solver ℚ) (strict : Bool) :
    conex la sol strict (oneRow [1, -1] 0 [0, 0]) (onlyS [1, 1]) none = .throws :=
  conex_throws rfl rfl rfl noLa (by decide +kernel) la sol strict

/-- An orthant, and Lorentz cones that all have variables, are refused, whatever the data and the library. -/
theorem C85_refuses (la : LinAlg ℝ) (sol : Solver ℝ) (strict : Bool) (P : Prob ℝ) (K : RawCone)
    (pars : Option Pars) (h : HasOthers K) : conex la sol strict P K pars = .throws := by
  have hset : ∀ P' : Prob ℝ, setup P' K = .throws := by
    intro P'
    unfold setup
    by_cases h0 : P'.N < ConeBase.numVars (cleanK K)
    · rw [if_pos h0]
    rw [if_neg h0]
    by_cases h1 : isNontrivial (scalarField K.l) = true
    · rw [if_pos h1]
    rw [if_neg h1]
    by_cases h2 : isNontrivial K.r = true
    · rw [if_pos h2]
    rw [if_neg h2]
    by_cases h3 : isNontrivial K.q = true
    · rw [if_pos h3]
    exfalso
    rcases h with ⟨n, h, hn⟩ | h | h
    · exact h1 (nontrivial_iff.2 ⟨[n], by simp [scalarField, h], by simp, by simpa using hn⟩)
    · exact h3 (nontrivial_iff.2 h)
    · exact h2 (nontrivial_iff.2 h)
  unfold conex
  split
  · rfl
  · rfl
  · simp only [conexOn, hset, Outcome.bind_throws]

example : HasOthers ⟨none, none, some [3, 4], none, some [2]⟩ := by simp [HasOthers]

/-- Lorentz variables that are let pass and do not occur are left out, and the blocks behind them are found: minimise
`5 x₄ + 7 x₅` such that `x₄ + x₅ = 2`. -/
example : ∃ (sol : Solver ℚ) (r : Result ℚ),
    (∀ m Ls b, (sol m Ls b).1 = true →
      ScalarSolution m Ls b (sol m Ls b).2.1 fun k => (sol m Ls b).2.2 k 0) ∧
    conex noLa sol false (oneRow [0, 0, 0, 1, 1] 2 [0, 0, 0, 5, 7]) ⟨none, none, some [3, 0], none, some [1, 1]⟩
      none = .ok r ∧ r.pinf = false ∧ r.x 3 = 2 ∧ r.x 4 = 0 ∧ r.y 0 = 5 := by
  let y : Nat → ℚ := fun _ => 5
  let X : Nat → Nat → ℚ := fun k _ => if k = 0 then 2 else 0
  let sol : Solver ℚ := fun m Ls b => (decide (ScalarSolution m Ls b y fun k => X k 0), y, X)
  obtain ⟨r, h1, h2⟩ := passes_ok (o := conex noLa sol false (oneRow [0, 0, 0, 1, 1] 2 [0, 0, 0, 5, 7])
      ⟨none, none, some [3, 0], none, some [1, 1]⟩ none)
    (t := fun r => !r.pinf && (decide (r.x 3 = 2) && (decide (r.x 4 = 0) && decide (r.y 0 = 5)))) (by decide +kernel)
  refine ⟨sol, r, fun m Ls b h => by simpa [sol] using h, h1, ?_⟩
  simpa using h2

/-- `K.q = [3, 0]` is not refused.  Minimise `x₁ + x₂ + 5 x₄ + 5 x₅` such that `x₁ + 2 x₂ + x₄ + x₅ = 2`, the first
three variables are in the Lorentz cone, and the other ones are not negative.  The first two variables are taken
for the blocks: a library that is right answers `0` and `1`, and so does `conex`, without a word of failure. -/
theorem C85_lorentz_violated : ∃ (sol : Solver ℚ) (r : Result ℚ),
    (∀ m Ls b, (sol m Ls b).1 = true →
      ScalarSolution m Ls b (sol m Ls b).2.1 fun k => (sol m Ls b).2.2 k 0) ∧
    conex noLa sol false (oneRow [1, 2, 0, 1, 1] 2 [1, 1, 0, 5, 5]) ⟨none, none, some [3, 0], none, some [1, 1]⟩
      none = .ok r ∧ r.pinf = false ∧ r.x 0 = 0 ∧ r.x 1 = 1 := by
  let y : Nat → ℚ := fun _ => 1 / 2
  let X : Nat → Nat → ℚ := fun k _ => if k = 1 then 1 else 0
  let sol : Solver ℚ := fun m Ls b => (decide (ScalarSolution m Ls b y fun k => X k 0), y, X)
  obtain ⟨r, h1, h2⟩ := passes_ok (o := conex noLa sol false (oneRow [1, 2, 0, 1, 1] 2 [1, 1, 0, 5, 5])
      ⟨none, none, some [3, 0], none, some [1, 1]⟩ none)
    (t := fun r => !r.pinf && (decide (r.x 0 = 0) && decide (r.x 1 = 1))) (by decide +kernel)
  refine ⟨sol, r, fun m Ls b h => by simpa [sol] using h, h1, ?_⟩
  simpa using h2

/-- Such a library exists for `C85_lorentz_violated`: what it answers there is a solution. -/
example : ScalarSolution 1
    [{ n := 1, vars := [0], mats := fun _ _ _ => 1, affine := fun _ _ => 1 },
      { n := 1, vars := [0], mats := fun _ _ _ => 2, affine := fun _ _ => 1 }]
    (fun _ => 2) (fun _ => 1 / 2) (fun k => if k = 1 then 1 else 0) := by decide +kernel

end Verif.Matlab
