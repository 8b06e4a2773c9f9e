import Verif.Lemmas.VectorWrapper
import Verif.Spec.VectorWrapper
import Mathlib.Algebra.Field.Rat
import Mathlib.Tactic.FinCases

/-!
# C46: vector wrapper element operations stay in bounds

A vector all of whose entries have been written is `l.map some` for the list `l` of its entries.
-/

set_option linter.unusedSectionVars false

namespace BFL.Props

open Vec

variable {K : Type}

/-- **C46**, indexing: `v(i)` is entry number `i` counted from one, and nothing outside
`1 … rows()` may be read. -/
theorem C46_get (l : List K) (i : Nat) :
    (∀ x, Vec.get (l.map some) i = .ok x ↔ 1 ≤ i ∧ l[i - 1]? = some x) ∧
    ((i = 0 ∨ l.length < i) → Vec.get (l.map some) i = .ub) := by
  cases i with
  | zero => simp [Vec.get]
  | succ i =>
    refine ⟨fun x => ?_, fun h => get_of_ge _ (by simp; omega)⟩
    rw [get_succ]
    rw [show i + 1 - 1 = i from rfl]
    cases l[i]? <;> simp

/-- **C46**, writing: after `v(i) = x` entry `i` is `x`, the others and the size are unchanged;
nothing outside `1 … rows()` may be written. -/
theorem C46_put (v : Vec K) (i : Nat) (x : K) :
    (1 ≤ i ∧ i ≤ v.length → ∃ w, v.put i x = .ok w ∧ w.length = v.length ∧ w.get i = .ok x ∧
      ∀ j, j ≠ i → w.get j = v.get j) ∧
    ((i = 0 ∨ v.length < i) → v.put i x = .ub) := by
  cases i with
  | zero => simp [put]
  | succ i =>
    refine ⟨fun h => ?_, fun h => put_of_ge v x (by omega)⟩
    have h1 : v.put (i + 1) x = .ok (v.set i (some x)) := vset_of_lt (by omega)
    refine ⟨_, h1, by simp, ?_, ?_⟩
    · simp [Vec.get, vget, show i < v.length by omega, readMember]
    · intro j hj
      cases j with
      | zero => rfl
      | succ j => simp [Vec.get, vget, show i ≠ j by omega]

/-- **C46**, the constructor `ColumnVector(n, x)` and `v = x`: all entries equal to `x`. -/
theorem C46_make (n : Nat) (x : K) (v : Vec K) :
    (make n x).length = n ∧ (∀ i, 1 ≤ i → i ≤ n → (make n x).get i = .ok x) ∧
    (v.fill x).length = v.length ∧ ∀ i, 1 ≤ i → i ≤ v.length → (v.fill x).get i = .ok x := by
  refine ⟨by simp [make], fun i h1 h2 => ?_, by simp [fill], fun i h1 h2 => ?_⟩ <;>
    obtain ⟨k, rfl⟩ : ∃ k, i = k + 1 := ⟨i - 1, by omega⟩
  · simp [Vec.get, make, vget, show k < n by omega, readMember]
  · simp [Vec.get, fill, vget, show k < v.length by omega, readMember]

/-- **C46**, `assign`, Eigen back end: `assign(n, x)` yields `n` entries all equal to `x`. -/
theorem C46_assign_eigen_partial [Zero K] (v : Vec K) (n : Nat) (x : K) :
    ∃ w, v.assign .eigen n x = .ok w ∧ w.length = n ∧ ∀ i, 1 ≤ i → i ≤ n → w.get i = .ok x := by
  refine ⟨_, rfl, by simp [length_resize], fun i h1 h2 => ?_⟩
  obtain ⟨k, rfl⟩ : ∃ k, i = k + 1 := ⟨i - 1, by omega⟩
  simp [Vec.get, vget, length_resize, show k < n by omega, readMember]

/-- **C46**, `assign`, Boost back end: the claim is false. Whatever the vector held before,
`assign(n, x)` with `n ≥ 1` writes one entry past the end (it takes the indices of the Boost vector
to start at one). -/
theorem C46_assign_boost [Zero K] (v : Vec K) (n : Nat) (x : K) (hn : 1 ≤ n) :
    v.assign .boost n x = .ub :=
  assignLoop_ub x n 0 _ hn (by rw [length_resize]; omega)

/-- **C46**, `vectorAdd` of column vectors: the concatenation, under both back ends. -/
theorem C46_vectorAdd (be : Backend) (a b : List K) :
    vectorAdd be (a.map some) (b.map some) = .ok ((a ++ b).map some) :=
  vectorAdd_ok be a b

/-- **C46**, `sub`: the entries `s` to `t`, under both back ends, for every non-empty or empty range
inside the vector. -/
theorem C46_sub (be : Backend) (l : List K) (s t : Nat) (h1 : 1 ≤ s) (h2 : s ≤ t + 1)
    (h3 : t ≤ l.length) : sub be (l.map some) s t = .ok ((Spec.block l s t).map some) :=
  sub_ok be l h1 h2 h3

/-- **C46**, `sub`: a non-empty range that leaves the vector is out of bounds. -/
theorem C46_sub_bounds (be : Backend) (v : Vec K) (s t : Nat) (h : s ≤ t)
    (hb : s = 0 ∨ v.length < t) : sub be v s t = .ub :=
  sub_ub be v h hb

/-- **C46**, `sub` undoes `vectorAdd`: the two parts of a joined vector are its arguments. -/
theorem C46_sub_vectorAdd (be : Backend) (a b : List K) : ∃ w,
    vectorAdd be (a.map some) (b.map some) = .ok w ∧
    sub be w 1 a.length = .ok (a.map some) ∧
    sub be w (a.length + 1) (a.length + b.length) = .ok (b.map some) := by
  refine ⟨_, vectorAdd_ok be a b, ?_, ?_⟩
  · rw [sub_ok be _ (by omega) (by omega) (by simp)]
    simp
  · rw [sub_ok be _ (by omega) (by omega) (by simp), List.take_of_length_le (by simp)]
    simp

/-- **C46**, `vectorAdd` undoes `sub`: joining the first `k` entries and the rest of a vector gives
the vector back. -/
theorem C46_vectorAdd_sub (be : Backend) (l : List K) (k : Nat) (hk : k ≤ l.length) : ∃ v1 v2,
    sub be (l.map some) 1 k = .ok v1 ∧ sub be (l.map some) (k + 1) l.length = .ok v2 ∧
    vectorAdd be v1 v2 = .ok (l.map some) := by
  refine ⟨_, _, sub_ok be l (by omega) (by omega) hk, sub_ok be l (by omega) (by omega) le_rfl, ?_⟩
  rw [vectorAdd_ok]
  simp

/-- **C46**, `vectorAdd` of row vectors, Boost back end: the concatenation. -/
theorem C46_rowVectorAdd_boost_partial (a b : List K) :
    rowVectorAdd .boost (a.map some) (b.map some) = .ok ((a ++ b).map some) :=
  joinBoost_ok a b

/-- **C46**, `vectorAdd` of row vectors, Eigen back end: the claim is false. The function works on
two row vectors of one entry each and on nothing else. -/
theorem C46_rowVectorAdd_eigen (a b : List K) :
    (a.length = 1 ∧ b.length = 1 →
      rowVectorAdd .eigen (a.map some) (b.map some) = .ok ((a ++ b).map some)) ∧
    (¬ (a.length = 1 ∧ b.length = 1) →
      rowVectorAdd .eigen (a.map some) (b.map some) = .ub) := by
  refine ⟨fun ⟨h1, h2⟩ => ?_, fun h => joinEigen_ub _ _ _ _ ?_⟩
  · have := joinEigen_ok (a.map some) (b.map some)
    simp only [List.length_map, h1, h2] at this
    simp only [rowVectorAdd, rowVectorRows, this, List.map_append]
  · simp only [List.length_map, rowVectorRows]
    tauto

variable {r c : Nat}

/-- **C46**, `rowCopy` and `columnCopy`, Boost back end: `rowCopy(i)` is row `i`, counted from one
like everywhere else in the interface, `columnCopy(j)` is column `j`. -/
theorem C46_rowCopy_boost_partial (m : Matrix (Fin r) (Fin c) K) (i : Fin r) (j : Fin c) :
    Mat.rowCopy .boost m (i + 1) = .ok ((List.ofFn (m i)).map some) ∧
    Mat.columnCopy .boost m (j + 1) = .ok ((List.ofFn fun k => m k j).map some) :=
  ⟨Mat.copyEntries_ok fun j => Mat.get_of m i j, Mat.copyEntries_ok fun i => Mat.get_of m i j⟩

/-- **C46**, `rowCopy` of a symmetric matrix: row `i` under both back ends. -/
theorem C46_symRowCopy (m : Matrix (Fin r) (Fin r) K) (i : Fin r) :
    Mat.symRowCopy m (i + 1) = .ok ((List.ofFn (m i)).map some) :=
  Mat.copyEntries_ok fun j => Mat.get_of m i j

/-- **C46**, out of range: under Boost, `rowCopy(i)` of a matrix with at least one column reads
outside the matrix for `i = 0` and `i > rows()`. -/
theorem C46_rowCopy_bounds (m : Matrix (Fin r) (Fin c) K) (hc : 0 < c) (i : Nat)
    (hi : i = 0 ∨ r < i) : Mat.rowCopy .boost m i = .ub :=
  Mat.copyEntries_ub hc (Mat.get_ub m (by omega))

/-- **C46**, `rowCopy` and `columnCopy`, Eigen back end: the claim is false. `rowCopy(i)` is row
`i + 1`, and asking for the last row, `rowCopy(rows())`, reads outside the matrix; the same holds for
columns. -/
theorem C46_rowCopy_eigen (m : Matrix (Fin r) (Fin c) K) :
    (∀ i : Fin r, Mat.rowCopy .eigen m i = .ok ((List.ofFn (m i)).map some)) ∧
    Mat.rowCopy .eigen m r = .ub ∧
    (∀ j : Fin c, Mat.columnCopy .eigen m j = .ok ((List.ofFn fun k => m k j).map some)) ∧
    Mat.columnCopy .eigen m c = .ub := by
  refine ⟨fun i => ?_, ?_, fun j => ?_, ?_⟩
  · rw [Mat.rowCopy, dif_pos i.2]
  · rw [Mat.rowCopy, dif_neg (lt_irrefl _)]
  · rw [Mat.columnCopy, dif_pos j.2]
  · rw [Mat.columnCopy, dif_neg (lt_irrefl _)]

/-- **C46**: consequently no index gives the same row under both back ends, as soon as the rows of
the matrix are distinct. -/
theorem C46_rowCopy_backends_differ (m : Matrix (Fin r) (Fin c) K) (hc : 0 < c)
    (hm : Function.Injective m) (i : Nat) (x : Vec K) :
    ¬ (Mat.rowCopy .boost m i = .ok x ∧ Mat.rowCopy .eigen m i = .ok x) := by
  rintro ⟨h1, h2⟩
  by_cases hi : i = 0 ∨ r < i
  · rw [C46_rowCopy_bounds m hc i hi] at h1; cases h1
  · obtain ⟨k, rfl⟩ : ∃ k, i = k + 1 := ⟨i - 1, by omega⟩
    have h3 := (C46_rowCopy_boost_partial m ⟨k, by omega⟩ ⟨0, hc⟩).1
    rw [show ((⟨k, by omega⟩ : Fin r) : Nat) + 1 = k + 1 from rfl, h1] at h3
    by_cases hk : k + 1 < r
    · have h4 := (C46_rowCopy_eigen m).1 ⟨k + 1, hk⟩
      rw [show ((⟨k + 1, hk⟩ : Fin r) : Nat) = k + 1 from rfl, h2, h3] at h4
      simp only [Outcome.ok.injEq] at h4
      have h5 := List.ofFn_injective (List.map_injective_iff.mpr (Option.some_injective K) h4)
      have := congrArg Fin.val (hm h5)
      simp at this
    · rw [Mat.rowCopy, dif_neg hk] at h2; cases h2

/-! Concrete cases. -/

example : vectorAdd .boost [some (1 : ℚ), some 2] [some 3] = .ok [some 1, some 2, some 3] := by
  decide +kernel
example : sub .eigen [some (1 : ℚ), some 2, some 3] 2 3 = .ok [some 2, some 3] := by decide +kernel
example : assign .boost [some (1 : ℚ), some 2] 2 5 = .ub := by decide +kernel
example : assign .eigen [some (1 : ℚ), some 2] 3 5 = .ok [some 5, some 5, some 5] := by
  decide +kernel
example : rowVectorAdd .eigen [some (1 : ℚ), some 2] [some 3] = .ub := by decide +kernel
example : Mat.rowCopy .boost !![(1 : ℚ), 2; 3, 4] 1 = .ok [some 1, some 2] := by decide +kernel
example : Mat.rowCopy .eigen !![(1 : ℚ), 2; 3, 4] 1 = .ok [some 3, some 4] := by decide +kernel
example : Function.Injective (!![(1 : ℚ), 2; 3, 4] : Fin 2 → Fin 2 → ℚ) := by
  intro a b h
  have := congrFun h 0
  fin_cases a <;> fin_cases b <;> simp_all

end BFL.Props
