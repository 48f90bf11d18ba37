import Verif.Spec.TriangularWorkspace
import Verif.Lemmas.TriangularWorkspace

/-!
# C17: storage of the supernodal matrix
-/

namespace Verif.Sup

open Spec

/-- A pattern with an empty block and with fill-in, used in the examples. -/
def exSizes : List Nat := [2, 0, 1, 0, 3]
def exSeps : List (List Nat) := [[], [2, 3], [3, 5], [3, 4], []]
def exPath : List (List Nat) := [[0, 1], [2, 3], [2, 3, 5], [3, 4], [3, 4, 5]]

theorem exPattern : Pattern exSizes exSeps ∧ IsPath exSizes exSeps exPath ∧ exSizes ≠ [] := by
  have cases5 : ∀ {α : Type} {l : List α} {k : Nat} {x : α}, l.length = 5 → l[k]? = some x →
      k = 0 ∨ k = 1 ∨ k = 2 ∨ k = 3 ∨ k = 4 := by
    intro α l k x hl h
    have := (List.getElem?_eq_some_iff.1 h).1
    omega
  refine ⟨⟨rfl, ?_, ?_, ?_⟩, ⟨rfl, ?_⟩, by decide⟩
  · intro k s hk
    rcases cases5 rfl hk with rfl | rfl | rfl | rfl | rfl <;>
      simp [exSeps] at hk <;> subst hk <;> decide
  · intro k s hk
    rcases cases5 rfl hk with rfl | rfl | rfl | rfl | rfl <;>
      simp [exSeps] at hk <;> subst hk <;> decide
  · intro k s hk c hc r hr hle o ho
    have ho' := ho.1
    have : o = 0 ∨ o = 1 ∨ o = 2 ∨ o = 3 ∨ o = 4 := by simp [exSizes] at ho'; omega
    have h1 := ho.2.1
    have h2 := ho.2.2
    rcases cases5 rfl hk with rfl | rfl | rfl | rfl | rfl <;>
      simp [exSeps] at hk <;> subst hk <;> simp at hc hr <;>
      rcases this with rfl | rfl | rfl | rfl | rfl <;>
      simp [InBlock, start, exSizes, exSeps] at * <;> omega
  · intro k size s hk hs
    rcases cases5 rfl hk with rfl | rfl | rfl | rfl | rfl <;>
      simp [exSizes, exSeps] at hk hs <;> subst hk <;> subst hs <;> rfl

/-- **C17 (storage).** For every well-formed pattern the workspace can be built; valid cells lie
inside the allocated buffer, different valid cells have different positions, and every block starts
at a multiple of four doubles (the alignment promised to Eigen). -/
theorem C17_storage (sizes : List Nat) (seps path : List (List Nat)) (P : Pattern sizes seps)
    (hp : IsPath sizes seps path) (hne : sizes ≠ []) :
    ∃ w, workspaceInit path sizes = .ok w ∧ w.sizes = sizes ∧ w.seps = seps ∧ w.N = sizes.sum ∧
      (∀ a, Valid sizes seps a → w.addr a < w.sizeOf) ∧
      (∀ a b, Valid sizes seps a → Valid sizes seps b → w.addr a = w.addr b → a = b) ∧
      (∀ k, 4 ∣ w.addr (.diag k 0 0) ∧ 4 ∣ w.addr (.off k 0 0)) := by
  obtain ⟨w, hw, W⟩ := workspaceInit_spec P hne hp.1 hp.2
  refine ⟨w, hw, W.sizes, W.seps, W.N, ?_⟩
  have hl : w.snodes.length = w.seps.length := by rw [W.snodes, W.seps, P.len]; simp
  have hsz : w.seps.length = sizes.length := by rw [W.seps, P.len]
  -- a cell of block k lies in the slice of block k
  have hslice : ∀ k r c, r < w.size k → c < w.size k →
      r + c * w.size k < w.sizeOfSupernode k := fun k r c hr hc =>
    lt_of_lt_of_le (colMajor_lt hr hc) (le_aligned _)
  have hslice' : ∀ k r c, r < w.size k → c < (w.sep k).length →
      r + c * w.size k < w.sizeOfSeparator k := fun k r c hr hc =>
    lt_of_lt_of_le (colMajor_lt hr hc) (le_aligned _)
  have key : ∀ a, Valid sizes seps a → ∃ k, k < sizes.length ∧ w.base k ≤ w.addr a ∧
      w.addr a < w.base (k + 1) ∧
      ((∃ r c, a = .diag k r c ∧ w.addr a < w.base k + w.sizeOfSupernode k) ∨
       (∃ r c, a = .off k r c ∧ w.base k + w.sizeOfSupernode k ≤ w.addr a)) := by
    intro a ha
    cases a with
    | diag k r c =>
      obtain ⟨h1, h2, h3⟩ := ha
      rw [← W.size_eq] at h2 h3
      have h4 := hslice k r c h2 h3
      rw [show w.addr (.diag k r c) = w.base k + r + c * w.size k from rfl]
      exact ⟨k, h1, by omega, by rw [base_succ]; omega, .inl ⟨r, c, rfl, by omega⟩⟩
    | off k r c =>
      obtain ⟨h1, h2, h3⟩ := ha
      rw [← W.size_eq] at h2
      rw [← W.sep_eq] at h3
      have h4 := hslice' k r c h2 h3
      rw [show w.addr (.off k r c) = w.base k + w.sizeOfSupernode k + r + c * w.size k from rfl]
      exact ⟨k, h1, by omega, by rw [base_succ]; omega, .inr ⟨r, c, rfl, by omega⟩⟩
  refine ⟨?_, ?_, ?_⟩
  · intro a ha
    obtain ⟨k, h1, _, h3, _⟩ := key a ha
    rw [← base_eq_sizeOf w hl, hsz]
    exact lt_of_lt_of_le h3 (base_mono w (by omega))
  · intro a b ha hb hab
    obtain ⟨k, k1, k2, k3, k4⟩ := key a ha
    obtain ⟨m, m1, m2, m3, m4⟩ := key b hb
    have hkm : k = m := by
      rcases lt_trichotomy k m with h | h | h
      · have := base_mono w (show k + 1 ≤ m by omega); omega
      · exact h
      · have := base_mono w (show m + 1 ≤ k by omega); omega
    subst hkm
    rcases k4 with ⟨r, c, rfl, h⟩ | ⟨r, c, rfl, h⟩ <;>
      rcases m4 with ⟨r', c', rfl, h'⟩ | ⟨r', c', rfl, h'⟩
    · simp only [Workspace.addr] at hab
      obtain ⟨_, h2, _⟩ := ha
      obtain ⟨_, h2', _⟩ := hb
      rw [← W.size_eq] at h2 h2'
      obtain ⟨rfl, rfl⟩ := colMajor_inj h2 h2' (show r + c * w.size k = r' + c' * w.size k by omega)
      rfl
    · omega
    · omega
    · simp only [Workspace.addr] at hab
      obtain ⟨_, h2, _⟩ := ha
      obtain ⟨_, h2', _⟩ := hb
      rw [← W.size_eq] at h2 h2'
      obtain ⟨rfl, rfl⟩ := colMajor_inj h2 h2' (show r + c * w.size k = r' + c' * w.size k by omega)
      rfl
  · intro k
    have h1 := base_dvd w k
    have h2 := aligned_dvd (w.size k * w.size k)
    simp only [Workspace.addr, Nat.zero_mul, Nat.add_zero, Workspace.sizeOfSupernode]
    exact ⟨h1, Nat.dvd_add h1 h2⟩

/-- **C17 (look-up).** Looking up the address of entry `(r, c)` returns the unique valid cell that
stands for it, and throws if no cell does. -/
theorem C17_lookup (sizes : List Nat) (seps path : List (List Nat)) (P : Pattern sizes seps)
    (hp : IsPath sizes seps path) (hne : sizes ≠ []) :
    ∃ w, workspaceInit path sizes = .ok w ∧
      ∀ r c, r < sizes.sum → c < sizes.sum →
        (∀ a, w.lookupAddress r c = .ok a ↔ Valid sizes seps a ∧ coord sizes seps a = (r, c)) ∧
        ((¬ ∃ a, Valid sizes seps a ∧ coord sizes seps a = (r, c)) →
          w.lookupAddress r c = .throws) := by
  obtain ⟨w, hw, W⟩ := workspaceInit_spec P hne hp.1 hp.2
  refine ⟨w, hw, ?_⟩
  intro r c hr hc
  obtain ⟨a, ha⟩ := exists_block sizes hr
  obtain ⟨b, hb⟩ := exists_block sizes hc
  have hblock : ∀ k i, k < sizes.length → i < sizes.getD k 0 → InBlock sizes k (start sizes k + i) := by
    intro k i hk hi
    refine ⟨hk, by omega, ?_⟩
    rw [start_succ _ hk]
    rw [List.getD_eq_getElem?_getD, List.getElem?_eq_getElem hk] at hi
    simpa using hi
  have hoff : ∀ k v, InBlock sizes k v → v - start sizes k < sizes.getD k 0 := by
    intro k v hv
    obtain ⟨h1, h2, h3⟩ := hv
    rw [start_succ _ h1] at h3
    rw [List.getD_eq_getElem?_getD, List.getElem?_eq_getElem h1]
    simp only [Option.getD_some]
    omega
  -- characterisation of the cells standing for (r, c)
  have hchar : ∀ x, Valid sizes seps x ∧ coord sizes seps x = (r, c) ↔
      (b = a ∧ x = .diag b (r - start sizes a) (c - start sizes b)) ∨
      (b ≠ a ∧ r ∈ seps.getD b [] ∧ x = .off b (c - start sizes b) ((seps.getD b []).idxOf r)) := by
    intro x
    constructor
    · rintro ⟨hv, hx⟩
      cases x with
      | diag k i j =>
        simp only [coord, Prod.mk.injEq] at hx
        obtain ⟨rfl, rfl⟩ := hx
        obtain ⟨h1, h2, h3⟩ := hv
        have e1 := ha.unique (hblock k i h1 h2)
        have e2 := hb.unique (hblock k j h1 h3)
        subst e1; subst e2
        left
        exact ⟨rfl, by simp⟩
      | off k i j =>
        simp only [coord, Prod.mk.injEq] at hx
        obtain ⟨rfl, rfl⟩ := hx
        obtain ⟨h1, h2, h3⟩ := hv
        have e2 := hb.unique (hblock k i h1 h2)
        subst e2
        have hmem : (seps.getD b []).getD j 0 ∈ seps.getD b [] := by
          rw [List.getD_eq_getElem?_getD (l := seps.getD b []), List.getElem?_eq_getElem h3]
          exact List.getElem_mem h3
        right
        refine ⟨?_, hmem, ?_⟩
        · rintro rfl
          have := (P.sep_not_own hmem).1
          have := ha.2.2
          omega
        · congr 1
          · simp
          · have hnd : (seps.getD b []).Nodup := SSorted.nodup (P.sep_sorted b)
            rw [List.getD_eq_getElem?_getD (l := seps.getD b []), List.getElem?_eq_getElem h3]
            exact (List.Nodup.idxOf_getElem hnd j h3).symm
    · rintro (⟨rfl, rfl⟩ | ⟨hba, hmem, rfl⟩)
      · refine ⟨⟨hb.1, hoff _ _ ha, hoff _ _ hb⟩, ?_⟩
        simp only [coord, Prod.mk.injEq]
        exact ⟨by have := ha.2.1; omega, by have := hb.2.1; omega⟩
      · refine ⟨⟨hb.1, hoff _ _ hb, List.idxOf_lt_length_of_mem hmem⟩, ?_⟩
        simp only [coord, Prod.mk.injEq]
        refine ⟨?_, by have := hb.2.1; omega⟩
        rw [List.getD_eq_getElem?_getD (l := seps.getD b []),
          List.getElem?_eq_getElem (List.idxOf_lt_length_of_mem hmem)]
        simp
  rw [W.lookup ha hb]
  constructor
  · intro x
    rw [hchar x]
    generalize seps.getD b [] = sb
    by_cases h1 : b = a
    · simp [h1, eq_comm]
    · by_cases h2 : r ∈ sb
      · simp [h1, h2, eq_comm]
      · simp [h1, h2]
  · intro hno
    by_cases h1 : b = a
    · exact absurd ⟨_, (hchar _).2 (.inl ⟨h1, rfl⟩)⟩ hno
    · by_cases h2 : r ∈ seps.getD b []
      · exact absurd ⟨_, (hchar _).2 (.inr ⟨h1, h2, rfl⟩)⟩ hno
      · rw [if_neg h1, if_neg h2]

/-- **C17 (separator table).** The table of addresses for the update of the later blocks can be
built for every block of a well-formed pattern, and lists the cells of the entries
`(s_i, s_j)`, `i ≥ j`, column by column. -/
theorem C17_separator_cells (sizes : List Nat) (seps path : List (List Nat)) (P : Pattern sizes seps)
    (hp : IsPath sizes seps path) (hne : sizes ≠ []) :
    ∃ w, workspaceInit path sizes = .ok w ∧
      ∀ (k : Nat) (s : List Nat), seps[k]? = some s → ∃ cells, w.sepCells k = .ok cells ∧
        cells.map (coord sizes seps) = lowerPairs s ∧ ∀ a ∈ cells, Valid sizes seps a := by
  obtain ⟨w, hw, hlook⟩ := C17_lookup sizes seps path P hp hne
  obtain ⟨w', hw', W⟩ := workspaceInit_spec P hne hp.1 hp.2
  rw [hw] at hw'
  simp only [Outcome.ok.injEq] at hw'
  subst hw'
  refine ⟨w, hw, ?_⟩
  intro k s hs
  have hsep : w.sep k = s := by rw [W.sep_eq, List.getD_eq_getElem?_getD, hs]; rfl
  have hgd : seps.getD k [] = s := by rw [List.getD_eq_getElem?_getD, hs]; rfl
  unfold Workspace.sepCells
  rw [hsep]
  have key : ∀ ps : List (Nat × Nat), (∀ p ∈ ps, p.1 ∈ s ∧ p.2 ∈ s ∧ p.2 ≤ p.1) →
      ∃ cells, lookupAll w ps = .ok cells ∧ cells.map (coord sizes seps) = ps ∧
        ∀ a ∈ cells, Valid sizes seps a := by
    intro ps
    induction ps with
    | nil => intro _; exact ⟨[], rfl, rfl, by simp⟩
    | cons p ps ih =>
      intro h
      obtain ⟨r, c⟩ := p
      obtain ⟨cells, e1, e2, e3⟩ := ih (fun q hq => h q (List.mem_cons_of_mem _ hq))
      obtain ⟨hr, hc, hle⟩ := h (r, c) (by simp)
      simp only at hr hc hle
      have hrl := (P.above k s hs r hr).2
      have hcl := (P.above k s hs c hc).2
      obtain ⟨b, hb⟩ := exists_block sizes hcl
      obtain ⟨a, ha⟩ := exists_block sizes hrl
      have hl := W.lookup ha hb
      have hok : ∃ x, w.lookupAddress r c = .ok x := by
        rw [hl]
        by_cases hba : b = a
        · rw [if_pos hba]; exact ⟨_, rfl⟩
        · rw [if_neg hba]
          rcases P.closed' (k := k) (by rw [hgd]; exact hc) (by rw [hgd]; exact hr) hle hb with h1 | h1
          · exact absurd (h1.unique ha) hba
          · rw [if_pos h1]; exact ⟨_, rfl⟩
      obtain ⟨x, hx⟩ := hok
      have hx' := ((hlook r c hrl hcl).1 x).1 hx
      refine ⟨x :: cells, ?_, ?_, ?_⟩
      · simp [lookupAll, hx, e1, Outcome.bind]
      · simp [hx'.2, e2]
      · intro y hy
        rcases List.mem_cons.1 hy with rfl | hy
        · exact hx'.1
        · exact e3 y hy
  exact key _ (fun p hp => ⟨(mem_lowerPairs hp).1, (mem_lowerPairs hp).2,
    lowerPairs_le (P.sorted k s hs) hp⟩)

/-- **C17 (reading the matrix).** `Get`, which finds the block by a linear search, returns the same
cell as the address look-up for every structural entry of the lower triangle and zero for every other
entry. -/
theorem C17_get (sizes : List Nat) (seps path : List (List Nat)) (P : Pattern sizes seps)
    (hp : IsPath sizes seps path) (hne : sizes ≠ []) :
    ∃ w, workspaceInit path sizes = .ok w ∧
      ∀ i j, i < sizes.sum → j < sizes.sum →
        ∃ o, w.getCell i j = .ok o ∧
          ∀ a, o = some a ↔ j ≤ i ∧ Valid sizes seps a ∧ coord sizes seps a = (i, j) := by
  obtain ⟨w, hw, hlook⟩ := C17_lookup sizes seps path P hp hne
  obtain ⟨w', hw', W⟩ := workspaceInit_spec P hne hp.1 hp.2
  rw [hw] at hw'
  simp only [Outcome.ok.injEq] at hw'
  subst hw'
  refine ⟨w, hw, ?_⟩
  intro i j hi hj
  by_cases hij : i < j
  · refine ⟨none, by simp [Workspace.getCell, hij], ?_⟩
    intro a
    simp only [reduceCtorEq, false_iff]
    omega
  obtain ⟨a, ha⟩ := exists_block sizes hi
  obtain ⟨b, hb⟩ := exists_block sizes hj
  have hsn : ∀ k, k < sizes.length → w.snodes.getD k [] =
      List.range' (start sizes k) (sizes.getD k 0) := by
    intro k hk
    rw [W.snodes, List.getD_eq_getElem?_getD, List.getElem?_map, List.getElem?_range hk]
    rfl
  have hsize : ∀ k, k < sizes.length → start sizes (k + 1) = start sizes k + sizes.getD k 0 := by
    intro k hk
    rw [start_succ _ hk, List.getD_eq_getElem?_getD, List.getElem?_eq_getElem hk]; rfl
  have hfind : ∀ m, b < m → m ≤ sizes.length → lookupSuperNode w.snodes j m = .ok b := by
    intro m
    induction m with
    | zero => intro h; omega
    | succ m ih =>
      intro h1 h2
      simp only [lookupSuperNode, hsn m (by omega)]
      by_cases hbm : b = m
      · subst hbm
        have hpos : 0 < sizes.getD b 0 := by
          have := hsize b (by omega); have := hb.2.1; have := hb.2.2; omega
        obtain ⟨n, hn⟩ : ∃ n, sizes.getD b 0 = n + 1 := ⟨sizes.getD b 0 - 1, by omega⟩
        rw [hn, List.range'_succ]
        simp [hb.2.1]
      · have hlt : j < start sizes m := by
          have := start_mono sizes (show b + 1 ≤ m by omega)
          have := hb.2.2; omega
        cases hz : sizes.getD m 0 with
        | zero => simp only [List.range'_zero]; exact ih (by omega) (by omega)
        | succ n =>
          rw [List.range'_succ]
          simp only
          rw [if_neg (by omega)]
          exact ih (by omega) (by omega)
  have hlen : w.snodes.length = sizes.length := by rw [W.snodes]; simp
  have hblt := hb.1
  have hpos : 0 < sizes.getD b 0 := by
    have := hsize b hblt; have := hb.2.1; have := hb.2.2; omega
  have hfirst : (w.snodes.getD b []).headD 0 = start sizes b := by
    rw [hsn b hblt]
    obtain ⟨n, hn⟩ : ∃ n, sizes.getD b 0 = n + 1 := ⟨sizes.getD b 0 - 1, by omega⟩
    rw [hn, List.range'_succ]; rfl
  have hget : w.getCell i j =
      if i - start sizes b < sizes.getD b 0 ∧ j - start sizes b < sizes.getD b 0 then
        .ok (some (.diag b (i - start sizes b) (j - start sizes b)))
      else if i ∈ seps.getD b [] then
        .ok (some (.off b (j - start sizes b) ((seps.getD b []).idxOf i)))
      else .ok none := by
    simp only [Workspace.getCell]
    rw [if_neg hij, hfind _ (by omega) (by omega)]
    simp only [Outcome.bind, hfirst, W.size_eq, W.sep_eq]
  have hcond : (i - start sizes b < sizes.getD b 0 ∧ j - start sizes b < sizes.getD b 0) ↔ b = a := by
    have h1 := hsize b hblt
    have h2 := hb.2.1
    have h3 := hb.2.2
    constructor
    · rintro ⟨h4, _⟩
      exact (show InBlock sizes b i from ⟨hblt, by omega, by omega⟩).unique ha
    · rintro rfl
      have := ha.2.1; have := ha.2.2; omega
  have hl := W.lookup ha hb
  obtain ⟨hl1, hl2⟩ := hlook i j hi hj
  have e : ∀ x, (j ≤ i ∧ Valid sizes seps x ∧ coord sizes seps x = (i, j)) ↔
      w.lookupAddress i j = .ok x := by
    intro x
    rw [hl1 x]
    exact ⟨fun h => h.2, fun h => ⟨by omega, h⟩⟩
  rw [hget]
  by_cases hba : b = a
  · rw [if_pos (hcond.2 hba)]
    refine ⟨_, rfl, fun x => ?_⟩
    rw [e x, hl, if_pos hba]
    subst hba
    simp
  · rw [if_neg (fun h => hba (hcond.1 h))]
    by_cases hm : i ∈ seps.getD b []
    · rw [if_pos hm]
      refine ⟨_, rfl, fun x => ?_⟩
      rw [e x, hl, if_neg hba, if_pos hm]
      simp
    · rw [if_neg hm]
      refine ⟨_, rfl, fun x => ?_⟩
      rw [e x, hl, if_neg hba, if_neg hm]
      simp

/-- The hypotheses hold for a concrete pattern with fill-in and empty blocks. -/
example : Pattern exSizes exSeps ∧ IsPath exSizes exSeps exPath ∧ exSizes ≠ [] := exPattern

example : (workspaceInit exPath exSizes).toOption.map (fun w => (w.sizeOf, w.lookupAddress 5 2,
    w.lookupAddress 4 2, w.sepCells 2)) =
    some (24, .ok (.off 2 0 1), .throws, .ok [.diag 4 0 0, .diag 4 2 0, .diag 4 2 2]) := by
  decide +kernel

end Verif.Sup
