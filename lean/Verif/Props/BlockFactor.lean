import Verif.Lemmas.BlockLdlt
import Mathlib.Data.Rat.Sqrt
import Mathlib.Algebra.Order.Field.Rat

/-!
# C20: block factorisation followed by block substitution solves the system
-/

namespace Verif.Sup

open Finset Spec Verif.Dense Dense.Spec

variable {R : Type} [Field R]

/-- **C20 (Cholesky, no failure but a refused block).** On every well-formed pattern the block
Cholesky factorisation reads and writes only existing entries; it returns `false` exactly when the
dense factorisation of some diagonal block is refused. -/
theorem C20_cholesky_total (sizes : List Nat) (seps path : List (List Nat)) (P : Pattern sizes seps)
    (hp : IsPath sizes seps path) (hne : sizes ≠ [])
    (llt : Nat → (Nat → Nat → R) → Option (Nat → Nat → R)) :
    ∃ w, workspaceInit path sizes = .ok w ∧ ∀ S : Store R,
      (∃ S', blockCholesky llt w S = .ok (some S')) ∨
      (blockCholesky llt w S = .ok none ∧
        ∃ k A, k < sizes.length ∧ llt (sizes.getD k 0) A = none) := by
  obtain ⟨w, hw, W⟩ := workspaceInit_spec P hne hp.1 hp.2
  refine ⟨w, hw, fun S => ?_⟩
  have step : ∀ k, k < sizes.length → ∀ S : Store R, (∃ S', cholStep llt w k S = .ok (some S')) ∨
      (cholStep llt w k S = .ok none ∧ ∃ A, llt (sizes.getD k 0) A = none) := by
    intro k hk S
    unfold cholStep
    simp only [W.size_eq, W.sep_eq]
    by_cases hn : sizes.getD k 0 = 0
    · rw [if_pos hn]; exact .inl ⟨_, rfl⟩
    rw [if_neg hn]
    generalize hL : llt (sizes.getD k 0) (diagOf S k) = o
    cases o with
    | none => exact .inr ⟨rfl, _, hL⟩
    | some L =>
      simp only
      split_ifs with hm
      · exact .inl ⟨_, rfl⟩
      · obtain ⟨cells, e1, _⟩ := sepCells_facts P hp hne hw hk
        rw [e1]
        exact .inl ⟨_, rfl⟩
  have key : ∀ n, n ≤ sizes.length → (∃ S', cholLoop llt w S n = .ok (some S')) ∨
      (cholLoop llt w S n = .ok none ∧ ∃ k A, k < sizes.length ∧ llt (sizes.getD k 0) A = none) := by
    intro n
    induction n with
    | zero => intro _; exact .inl ⟨S, rfl⟩
    | succ n ih =>
      intro hn
      rcases ih (by omega) with ⟨S', h⟩ | ⟨h, h'⟩
      · rw [cholLoop, h]
        simp only [Outcome.bind]
        rcases step n (by omega) S' with h1 | ⟨h1, A, h2⟩
        · exact .inl h1
        · exact .inr ⟨h1, n, A, by omega, h2⟩
      · rw [cholLoop, h]
        exact .inr ⟨rfl, h'⟩
  have := key sizes.length le_rfl
  unfold blockCholesky
  rw [W.sizes]
  exact this

/-- **C20 (Cholesky).** Let `M` be the symmetric matrix stored in the workspace. If the block
factorisation accepts it, then substitution with the factor returns the exact solution of `M x = b`,
for every right-hand side. The dense factorisation of a block is only assumed to satisfy its
contract. -/
theorem C20_cholesky_solves (sizes : List Nat) (seps path : List (List Nat)) (P : Pattern sizes seps)
    (hp : IsPath sizes seps path) (hne : sizes ≠ [])
    (llt : Nat → (Nat → Nat → R) → Option (Nat → Nat → R)) (hllt : LltContract llt) :
    ∃ w, workspaceInit path sizes = .ok w ∧ ∀ (S S' : Store R),
      blockCholesky llt w S = .ok (some S') →
      ∃ M : Nat → Nat → R,
        (∀ i j, i < sizes.sum → j < sizes.sum → denseSym w S i j = .ok (M i j)) ∧
        ∀ (b : Nat → R) (i : Nat), i < sizes.sum →
          ∑ j ∈ range sizes.sum, M i j * solveCholesky w S' b j = b i := by
  obtain ⟨w, hw, W⟩ := workspaceInit_spec P hne hp.1 hp.2
  refine ⟨w, hw, fun S S' h => ⟨fun i j => ent sizes seps S (max i j) (min i j), ?_, ?_⟩⟩
  · intro i j hi hj
    exact denseSym_eq P hp hne hw S hi hj
  · intro b
    exact cholesky_main P hp hne hw W hllt h b

section LDLT

variable [LinearOrder R] [IsStrictOrderedRing R]

/-- **C20 (LDLᵀ, when it is defined).** On a well-formed pattern the block LDLᵀ factorisation is
defined exactly if no block is empty. With an empty block it reads, and possibly overwrites, an entry
that does not exist. -/
theorem C20_ldlt_total_partial (sizes : List Nat) (seps path : List (List Nat)) (P : Pattern sizes seps)
    (hp : IsPath sizes seps path) (hne : sizes ≠ []) :
    ∃ w, workspaceInit path sizes = .ok w ∧ ∀ S : Store R,
      ((∀ n ∈ sizes, 0 < n) → ∃ F, blockLdlt w S = .ok F) ∧
      (0 ∈ sizes → blockLdlt w S = .ub) := by
  obtain ⟨w, hw, W⟩ := workspaceInit_spec P hne hp.1 hp.2
  refine ⟨w, hw, fun S => ?_⟩
  have step : ∀ k, k < sizes.length → 0 < sizes.getD k 0 → ∀ F : LdltStore R,
      ∃ F', ldltBlock w k F = .ok F' := by
    intro k hk hn F
    unfold ldltBlock
    simp only [W.size_eq, W.sep_eq]
    have hl : ∃ f, ldlt (sizes.getD k 0) (diagOf F.S k) = .ok f := by
      generalize sizes.getD k 0 = n at hn
      match n, hn with
      | 1, _ => exact ⟨_, rfl⟩
      | n + 2, _ => exact ⟨_, rfl⟩
    obtain ⟨f, hf⟩ := hl
    rw [hf]
    simp only [Outcome.bind]
    split_ifs with hm
    · exact ⟨_, rfl⟩
    · obtain ⟨cells, e1, _⟩ := sepCells_facts P hp hne hw hk
      rw [e1]
      exact ⟨_, rfl⟩
  have step0 : ∀ k, sizes.getD k 0 = 0 → ∀ F : LdltStore R, ldltBlock w k F = .ub := by
    intro k hn F
    unfold ldltBlock
    simp only [W.size_eq, hn, ldlt, Outcome.bind]
  constructor
  · intro hpos
    have key : ∀ n, n ≤ sizes.length → ∃ F, ldltBlocks w S n = .ok F := by
      intro n
      induction n with
      | zero => intro _; exact ⟨_, rfl⟩
      | succ n ih =>
        intro hn
        obtain ⟨F, hF⟩ := ih (by omega)
        rw [ldltBlocks, hF]
        simp only [Outcome.bind]
        refine step n (by omega) (hpos _ ?_) F
        rw [List.getD_eq_getElem?_getD, List.getElem?_eq_getElem (by omega : n < sizes.length)]
        exact List.getElem_mem _
    unfold blockLdlt
    rw [W.sizes]
    exact key _ le_rfl
  · intro h0
    obtain ⟨k, hk, hk0⟩ := List.getElem_of_mem h0
    have hk0' : sizes.getD k 0 = 0 := by
      rw [List.getD_eq_getElem?_getD, List.getElem?_eq_getElem hk]; exact hk0
    have key : ∀ n, n ≤ sizes.length → (∃ F, ldltBlocks w S n = .ok F ∧ n ≤ k) ∨
        ldltBlocks w S n = .ub := by
      intro n
      induction n with
      | zero => intro _; exact .inl ⟨_, rfl, by omega⟩
      | succ n ih =>
        intro hn
        rcases ih (by omega) with ⟨F, hF, hnk⟩ | hF
        · rw [ldltBlocks, hF]
          simp only [Outcome.bind]
          by_cases hnz : sizes.getD n 0 = 0
          · exact .inr (step0 n hnz F)
          · obtain ⟨F', hF'⟩ := step n (by omega) (by omega) F
            refine .inl ⟨F', hF', ?_⟩
            by_contra hcon
            have : n = k := by omega
            subst this
            exact hnz hk0'
        · rw [ldltBlocks, hF]
          exact .inr rfl
    unfold blockLdlt
    rw [W.sizes]
    rcases key _ le_rfl with ⟨_, _, h⟩ | h
    · omega
    · exact h

/-- **C20 (LDLᵀ).** If the block LDLᵀ factorisation is defined and replaces no pivot, then
substitution with the factor returns the exact solution of `M x = b`, for every right-hand side. -/
theorem C20_ldlt_solves (sizes : List Nat) (seps path : List (List Nat)) (P : Pattern sizes seps)
    (hp : IsPath sizes seps path) (hne : sizes ≠ []) :
    ∃ w, workspaceInit path sizes = .ok w ∧ ∀ (S : Store R) (F : LdltStore R),
      blockLdlt w S = .ok F → F.reg = false →
      ∃ M : Nat → Nat → R,
        (∀ i j, i < sizes.sum → j < sizes.sum → denseSym w S i j = .ok (M i j)) ∧
        ∀ (b : Nat → R) (i : Nat), i < sizes.sum →
          ∑ j ∈ range sizes.sum, M i j * solveLdlt w F b j = b i := by
  obtain ⟨w, hw, W⟩ := workspaceInit_spec P hne hp.1 hp.2
  refine ⟨w, hw, fun S F h hreg => ⟨fun i j => ent sizes seps S (max i j) (min i j), ?_, ?_⟩⟩
  · intro i j hi hj
    exact denseSym_eq P hp hne hw S hi hj
  · intro b
    exact ldlt_main P hp hne hw W h hreg b

end LDLT

/-! ### Concrete cases -/

/-- A dense Cholesky factorisation over the rationals that checks its result. -/
def exLlt (n : Nat) (A : Nat → Nat → Rat) : Option (Nat → Nat → Rat) :=
  let L := (List.range n).foldl (fun (L : List (List Rat)) c =>
    let e := fun r j => (L.getD r []).getD j 0
    let d := Rat.sqrt (A c c - ((List.range c).map fun j => e c j * e c j).sum)
    (List.range n).map fun r => (L.getD r []) ++
      [if r < c then 0 else if r = c then d
       else (A r c - ((List.range c).map fun j => e r j * e c j).sum) / d])
    (List.replicate n [])
  let e := fun r j => if j ≤ r then (L.getD r []).getD j 0 else 0
  if (∀ r, r < n → e r r ≠ 0) ∧
      ∀ r, r < n → ∀ c, c < r + 1 → ∑ k ∈ range n, e r k * e c k = A r c then some e
  else none

theorem exLlt_contract : LltContract exLlt := by
  intro n A L h
  unfold exLlt at h
  simp only at h
  split_ifs at h with hc
  simp only [Option.some.injEq] at h
  subst h
  refine ⟨fun r hr => hc.1 r hr, ?_, ?_⟩
  · intro r c _ hrc
    simp only
    rw [if_neg (by omega)]
  · intro r c hr hcr
    exact hc.2 r hr c (by omega)

/-- A store for the pattern `exSizes`, `exSeps`: two decoupled parts, with fill-in. -/
def exStore : Store Rat := fun a =>
  match a with
  | .diag 0 r c => if r = c then 5 - 1 * (if r = 0 then 1 else 0) else 2
  | .diag 2 _ _ => 4
  | .off 2 _ c => if c = 0 then 2 else 4
  | .diag 4 r c => if r = c then (if r = 1 then 5 else if r = 0 then 2 else 14)
      else if r + c = 3 then 1 else 2
  | _ => 0

/-- The factorisation of `exStore` is accepted, and the solution is the exact one. -/
example : ((workspaceInit exPath exSizes).bind fun w => (blockCholesky exLlt w exStore).bind fun o =>
    match o with
    | some S' => .ok ((List.range 6).map (solveCholesky w S' (fun i => (i : Rat) + 1)))
    | none => .throws) = .ok [1 / 16, 3 / 8, -7 / 6, 19 / 6, -1 / 3, 1 / 3] := by
  decide +kernel

example : LltContract exLlt ∧ Pattern exSizes exSeps ∧ IsPath exSizes exSeps exPath ∧ exSizes ≠ [] :=
  ⟨exLlt_contract, exPattern⟩

/-- A pattern without empty blocks. -/
def exSizes2 : List Nat := [1, 2, 1]
def exSeps2 : List (List Nat) := [[1, 3], [3], []]
def exPath2 : List (List Nat) := [[0, 1, 3], [1, 2, 3], [3]]

theorem exPattern2 : Pattern exSizes2 exSeps2 ∧ IsPath exSizes2 exSeps2 exPath2 ∧ exSizes2 ≠ [] := by
  have cases3 : ∀ {α : Type} {l : List α} {k : Nat} {x : α}, l.length = 3 → l[k]? = some x →
      k = 0 ∨ k = 1 ∨ k = 2 := by
    intro α l k x hl h
    have := (List.getElem?_eq_some_iff.1 h).1
    omega
  refine ⟨⟨rfl, ?_, ?_, ?_⟩, ⟨rfl, ?_⟩, by decide⟩
  · intro k s hk
    rcases cases3 rfl hk with rfl | rfl | rfl <;>
      simp [exSeps2] at hk <;> subst hk <;> decide
  · intro k s hk
    rcases cases3 rfl hk with rfl | rfl | rfl <;>
      simp [exSeps2] at hk <;> subst hk <;> decide
  · intro k s hk c hc r hr hle o ho
    have ho' := ho.1
    have : o = 0 ∨ o = 1 ∨ o = 2 := by simp [exSizes2] at ho'; omega
    have h1 := ho.2.1
    have h2 := ho.2.2
    rcases cases3 rfl hk with rfl | rfl | rfl <;>
      simp [exSeps2] at hk <;> subst hk <;> simp at hc hr <;>
      rcases this with rfl | rfl | rfl <;>
      simp [InBlock, start, exSizes2, exSeps2] at * <;> omega
  · intro k size s hk hs
    rcases cases3 rfl hk with rfl | rfl | rfl <;>
      simp [exSizes2, exSeps2] at hk hs <;> subst hk <;> subst hs <;> rfl

/-- An indefinite matrix that needs an exchange in the second block. -/
def exStore2 : Store Rat := fun a =>
  match a with
  | .diag 0 _ _ => -2
  | .off 0 _ c => if c = 0 then 1 else 3
  | .diag 1 r c => if r = c then (if r = 0 then 1 else 4) else 3
  | .off 1 r _ => if r = 0 then 1 else 2
  | .diag 2 _ _ => 0
  | _ => 0

example : ((workspaceInit exPath2 exSizes2).bind fun w => (blockLdlt w exStore2).bind fun F =>
    .ok (F.tr 1, F.reg, (List.range 4).map (solveLdlt w F (fun i => (i : Rat) + 1)))) =
    .ok ([1, 1], false, [37 / 29, 25 / 29, -10 / 29, 26 / 29]) := by
  decide +kernel

/-- **C20, empty block.** The hypothesis that no block is empty cannot be dropped: the symbolic
analysis produces empty blocks (see `exampleCliques`), and then the LDLᵀ variant has undefined
behaviour. -/
theorem C20_ldlt_empty_block_violated :
    ∃ w, workspaceInit exPath exSizes = .ok w ∧ blockLdlt w exStore = .ub := by
  obtain ⟨P, hp, hne⟩ := exPattern
  obtain ⟨w, hw, h⟩ := C20_ldlt_total_partial (R := Rat) exSizes exSeps exPath P hp hne
  exact ⟨w, hw, (h exStore).2 (by decide)⟩

/-- **C20, silent regularisation.** For a `1 × 1` block the small pivot `1e-10` is replaced by `1e-9`,
the factorisation still reports that no regularisation was used, and the "solution" of `M x = 1` is
wrong by a factor of ten. -/
theorem C20_ldlt_small_pivot_violated :
    ∃ w, workspaceInit [[0]] [1] = .ok w ∧ ∃ F : LdltStore Rat,
      blockLdlt w (fun _ => 1 / 10 ^ 10) = .ok F ∧ F.ret = true ∧
      denseSym w (fun _ => (1 / 10 ^ 10 : Rat)) 0 0 = .ok (1 / 10 ^ 10) ∧
      1 / 10 ^ 10 * solveLdlt w F (fun _ => 1) 0 = 1 / 10 :=
  ⟨_, rfl, _, rfl, rfl, by decide +kernel, by decide +kernel⟩

end Verif.Sup
