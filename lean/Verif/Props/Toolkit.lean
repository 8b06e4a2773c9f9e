import Verif.Lemmas.Toolkit

/-!
# C66, C67: property bags and row access from scripts

`Spec.SaysVec`, `Spec.SaysMat` describe the format of the bags; `Spec.IsMat` compares a matrix
object with a matrix; `Spec.RowAccess` is what a script may expect of `m[index]`.
-/

set_option linter.unusedSectionVars false

namespace BFL.Props

open Spec

variable {K : Type}

/-! ## C66: values written to a property bag and read back are unchanged -/

/-- **C66**, vectors: decomposing a column or row vector gives a bag that describes it, and
composing any bag that describes it, with the items in any order, into any vector object `old` gives
the vector, under both back ends. -/
theorem C66_vector [Zero K] (be : Backend) (tn : String) (l : List K) :
    (∃ b, decomposeVec tn (l.map some) .fresh = .ok b ∧ SaysVec tn l b) ∧
    ∀ (b : PBag K) (old : Vec K), SaysVec tn l b → composeVec be tn b old = .ok (true, l.map some) :=
  ⟨⟨_, decomposeVec_ok tn l .fresh, named_says tn l⟩, fun _ old h => composeVec_ok be h old⟩

/-- **C66**, vectors: a bag of another type is refused and the vector keeps its value. -/
theorem C66_vector_type [Zero K] (be : Backend) (tn : String) (b : PBag K) (old : Vec K)
    (h : b.type ≠ tn) : composeVec be tn b old = .ok (false, old) := by
  rw [composeVec, if_neg h]

/-- **C66**, malformed bags: the code does not refuse a bag of the right type in which one of the
items `"1"`, ..., `"n"` (`n` the number of items) is missing or is not a number; it uses a NULL
pointer. -/
theorem C66_vector_malformed [Zero K] (be : Backend) (tn : String) (b : PBag K) (old : Vec K)
    (ht : b.type = tn) (i : Nat) (hi : i < b.items.length)
    (hm : ∀ x, (toString (i + 1), PVal.num x) ∉ b.items) : composeVec be tn b old = .ub := by
  have h1 : b.getNum (itemName (i + 1)) = none := by
    simp only [PBag.getNum]
    split
    · next x hx => exact absurd (PBag.mem_of_find hx) (hm x)
    · rfl
  have h2 := composeVecLoop_ub b b.items.length 0 (old.resize be b.items.length)
    (by rw [resize_length]; omega) ⟨i, by omega, by omega, h1⟩
  rw [composeVec, if_pos ht, h2]
  rfl

variable {r c : Nat}

/-- **C66**, matrices, Boost back end: a matrix with at least one row is written to a bag that
describes it. -/
theorem C66_matrix_write_boost_partial (tn : String) (m : Matrix (Fin r) (Fin c) K) :
    ∃ b, decomposeMat .boost tn m .fresh = .ok b ∧ SaysMat tn m b :=
  ⟨_, decomposeMat_boost tn m, namedRows_says tn m⟩

/-- **C66**, matrices, Eigen back end: the claim is false. Writing any matrix with at least one row
to a bag reads outside the matrix. -/
theorem C66_matrix_write_eigen (tn : String) (m : Matrix (Fin r) (Fin c) K) (hr : 0 < r)
    (target : PBag K) : decomposeMat .eigen tn m target = .ub := by
  obtain ⟨k, rfl⟩ : ∃ k, r = k + 1 := ⟨r - 1, by omega⟩
  exact decomposeMatLoop_eigen m k 1 _ (by omega)

/-- **C66**, matrices: reading any bag that describes a matrix with at least one row gives that
matrix, under both back ends, whatever the matrix object held before. -/
theorem C66_matrix_read_partial [Zero K] (be : Backend) (m : Matrix (Fin r) (Fin c) K) (hr : 0 < r)
    (b : PBag K) (hb : SaysMat "Matrix" m b) (old : DynMat K) :
    ∃ a, composeMat be b old = .ok (true, a) ∧ IsMat m a := by
  obtain ⟨a, h1, _, h2⟩ := composeMatLoop_ok be hb r 0 0 old (by omega) (by omega)
    (fun _ _ h => by omega) hr
  exact ⟨a, by rw [composeMat, if_pos hb.1, hb.2.1]; exact h1, h2⟩

/-- **C66**, matrices without rows: the claim is false. Reading the bag of such a matrix reports
success and leaves in the matrix object whatever it held before. -/
theorem C66_matrix_empty [Zero K] (be be' : Backend) (m : Matrix (Fin 0) (Fin c) K)
    (old : DynMat K) :
    ∃ b, decomposeMat be "Matrix" m .fresh = .ok b ∧ composeMat be' b old = .ok (true, old) :=
  ⟨_, rfl, rfl⟩

/-- **C66**, matrices: a bag of another type is refused and the matrix keeps its value. -/
theorem C66_matrix_type [Zero K] (be : Backend) (b : PBag K) (old : DynMat K)
    (h : b.type ≠ "Matrix") : composeMat be b old = .ok (false, old) := by
  rw [composeMat, if_neg h]

/-- **C66**, refused bags: the claim that a refused bag leaves the matrix alone is false. For every
matrix object there is a bag that is refused after the object has been resized to two
rows and one column and its first row overwritten. -/
theorem C66_matrix_half_written [Zero K] (be : Backend) (x : K) (old : DynMat K) :
    ∃ b a, composeMat be b old = .ok (false, a) ∧ a.rows = 2 ∧ a.cols = 1 ∧
      a.entry 0 0 = some x := by
  refine ⟨⟨"Matrix", [("1", .bag "RowVector" [("1", .num x)]), ("2", .num x)]⟩, ?_⟩
  obtain ⟨a1, ha⟩ : ∃ a1, a1 = old.resize be 2 1 := ⟨_, rfl⟩
  have h1 : a1.rows = 2 ∧ a1.cols = 1 := by
    rw [ha]
    cases be
    · exact ⟨rfl, rfl⟩
    · simp only [DynMat.resize]
      split
      · next e => exact e
      · exact ⟨rfl, rfl⟩
  refine ⟨{ a1 with entry := fun a b => if a = 0 ∧ b = 0 then some x else a1.entry a b }, ?_,
    h1.1, h1.2, by simp⟩
  have h2 : composeVec be "RowVector" ⟨"RowVector", [("1", PVal.num x)]⟩ [] = .ok (true, [some x]) := by
    apply composeVec_ok be (l := [x])
    refine ⟨rfl, rfl, fun i hi => ?_⟩
    have : i = 0 := by simpa using hi
    subst this
    exact List.mem_singleton.mpr rfl
  have h3 : a1.putRow 1 [some x] 1 1
      = .ok { a1 with entry := fun a b => if a = 0 ∧ b = 0 then some x else a1.entry a b } := by
    simp only [DynMat.putRow, DynMat.put, h1.1, h1.2]
    rfl
  have e1 : PBag.getBag (K := K) ⟨"Matrix", [("1", .bag "RowVector" [("1", .num x)]), ("2", .num x)]⟩
      (itemName 1) = some ⟨"RowVector", [("1", PVal.num x)]⟩ := rfl
  have e2 : PBag.getBag (K := K) ⟨"Matrix", [("1", .bag "RowVector" [("1", .num x)]), ("2", .num x)]⟩
      (itemName 2) = none := rfl
  rw [composeMat, if_pos rfl]
  simp only [List.length_cons, List.length_nil, composeMatLoop, e1, h2, Outcome.ok_bind, sizeOfRow,
    if_pos, ← ha]
  simp only [h3, Outcome.ok_bind, e2]

/-- **C66**, symmetric matrices: reading any bag that describes a symmetric matrix (with any number
of rows) gives that matrix, under both back ends. -/
theorem C66_sym_read [Zero K] (be : Backend) (m : Matrix (Fin r) (Fin r) K)
    (hm : ∀ i j, m i j = m j i) (b : PBag K) (hb : SaysMat "SymmetricMatrix" m b)
    (old : DynMat K) : ∃ a, composeSym be b old = .ok (true, a) ∧ IsMat m a := by
  obtain ⟨a, h1, h2⟩ : ∃ a, composeMatLoop be b r r 1 0 .empty = .ok (true, a) ∧ IsMat m a := by
    by_cases hr : r = 0
    · subst hr
      exact ⟨.empty, rfl, rfl, rfl, fun i => i.elim0⟩
    · obtain ⟨a, h1, _, h2⟩ := composeMatLoop_ok be hb r 0 0 .empty (by omega) (by omega)
        (fun _ _ h => by omega) (by omega)
      exact ⟨a, h1, h2⟩
  have h3 : a.rows = a.cols := h2.1.trans h2.2.1.symm
  simp only [composeSym, if_pos hb.1, hb.2.1, h1, Outcome.ok_bind, DynMat.toSym, cassert_true h3]
  refine ⟨_, rfl, ?_⟩
  cases be
  · refine ⟨h2.1, h2.1, fun i j => ?_⟩
    simp only
    split
    · exact h2.2.2 i j
    · rw [h2.2.2 j i, hm]
  · refine ⟨h2.1, h2.1, fun i j => ?_⟩
    simp only
    split
    · exact h2.2.2 i j
    · rw [h2.2.2 j i, hm]

/-- **C66**, symmetric matrices: a bag that describes a square matrix that is not symmetric is
accepted, and one triangle of it silently ignored. Boost uses the lower triangle, Eigen the upper. -/
theorem C66_sym_triangle [Zero K] (m : Matrix (Fin r) (Fin r) K) (hr : 0 < r) (b : PBag K)
    (hb : SaysMat "SymmetricMatrix" m b) (old : DynMat K) :
    (∃ a, composeSym .boost b old = .ok (true, a) ∧
      IsMat (fun i j => if j ≤ i then m i j else m j i) a) ∧
    (∃ a, composeSym .eigen b old = .ok (true, a) ∧
      IsMat (fun i j => if i ≤ j then m i j else m j i) a) := by
  constructor
  · obtain ⟨a, h1, _, h2⟩ := composeMatLoop_ok .boost hb r 0 0 .empty (by omega) (by omega)
      (fun _ _ h => by omega) hr
    have h3 : a.rows = a.cols := h2.1.trans h2.2.1.symm
    rw [Nat.zero_add] at h1
    simp only [composeSym, if_pos hb.1, hb.2.1, h1, Outcome.ok_bind, DynMat.toSym, cassert_true h3]
    refine ⟨_, rfl, h2.1, h2.1, fun i j => ?_⟩
    simp only [Fin.val_fin_le]
    split
    · exact h2.2.2 i j
    · exact h2.2.2 j i
  · obtain ⟨a, h1, _, h2⟩ := composeMatLoop_ok .eigen hb r 0 0 .empty (by omega) (by omega)
      (fun _ _ h => by omega) hr
    have h3 : a.rows = a.cols := h2.1.trans h2.2.1.symm
    rw [Nat.zero_add] at h1
    simp only [composeSym, if_pos hb.1, hb.2.1, h1, Outcome.ok_bind, DynMat.toSym, cassert_true h3]
    refine ⟨_, rfl, h2.1, h2.1, fun i j => ?_⟩
    simp only [Fin.val_fin_le]
    split
    · exact h2.2.2 i j
    · exact h2.2.2 j i

/-- **C66**, symmetric matrices: a bag that describes a matrix that is not square is not refused but
ends the program. -/
theorem C66_sym_not_square [Zero K] (be : Backend) (m : Matrix (Fin r) (Fin c) K) (hr : 0 < r)
    (hrc : r ≠ c) (b : PBag K) (hb : SaysMat "SymmetricMatrix" m b) (old : DynMat K) :
    composeSym be b old = .abort := by
  obtain ⟨a, h1, _, h2⟩ := composeMatLoop_ok be hb r 0 0 .empty (by omega) (by omega)
    (fun _ _ h => by omega) hr
  have h3 : ¬ a.rows = a.cols := by rw [h2.1, h2.2.1]; exact hrc
  rw [Nat.zero_add] at h1
  simp only [composeSym, if_pos hb.1, hb.2.1, h1, Outcome.ok_bind, DynMat.toSym, cassert_false h3,
    Outcome.abort_bind]

/-- **C66**, matrices: a bag with at least one item is accepted only if it describes a matrix, and
then the object holds that matrix. -/
theorem C66_matrix_accepted [Zero K] (be : Backend) (b : PBag K) (old a : DynMat K)
    (hb : b.items ≠ []) (h : composeMat be b old = .ok (true, a)) :
    ∃ (r c : Nat) (m : Matrix (Fin r) (Fin c) K), 0 < r ∧ SaysMat "Matrix" m b ∧ IsMat m a := by
  have ht : b.type = "Matrix" := by
    by_contra hc
    rw [composeMat, if_neg hc] at h
    simp at h
  have h0 : 0 < b.items.length := List.length_pos_iff.2 hb
  rw [composeMat, if_pos ht] at h
  obtain ⟨c, _, hrow⟩ := composeMatLoop_accepted be b _ _ 0 0 old a h
  have hrow' : ∀ j : Fin b.items.length, ∃ (rb : PBag K) (l : List K),
      b.getBag (itemName (j + 1)) = some rb ∧ SaysVec "RowVector" l rb ∧ l.length = c :=
    fun j => hrow j (by omega) (by omega)
  choose rb l h1 h2 h3 using hrow'
  have hm : SaysMat "Matrix" (fun (i : Fin b.items.length) (j : Fin c) =>
      (l i)[j.val]'(by rw [h3]; exact j.2)) b := by
    refine ⟨ht, rfl, fun i => ⟨rb i, ?_, ?_⟩⟩
    · have := h1 i
      simp only [PBag.getBag] at this
      split at this
      · next t items hx =>
        simp only [Option.some.injEq] at this
        rw [← this]
        exact PBag.mem_of_find hx
      · simp at this
    · have e : (List.ofFn fun j : Fin c => (l i)[j.val]'(by rw [h3]; exact j.2)) = l i := by
        apply List.ext_getElem
        · simp [h3]
        · intro k k1 k2; simp
      rw [e]
      exact h2 i
  refine ⟨_, c, _, h0, hm, ?_⟩
  obtain ⟨a', k1, k2⟩ := C66_matrix_read_partial be _ h0 b hm old
  rw [composeMat, if_pos ht, h] at k1
  simp only [Outcome.ok.injEq, Prod.mk.injEq, true_and] at k1
  rw [k1]
  exact k2

/-- Every matrix with a row meets the hypothesis. -/
example (be : Backend) (b : PBag ℚ) (hb : SaysMat "Matrix" !![(1 : ℚ), 2; 3, 4] b) (old : DynMat ℚ) :
    b.items ≠ [] ∧ ∃ a, composeMat be b old = .ok (true, a) := by
  refine ⟨fun h => ?_, ?_⟩
  · have := hb.2.1
    rw [h] at this
    simp at this
  · obtain ⟨a, h, _⟩ := C66_matrix_read_partial be _ (by decide) b hb old
    exact ⟨a, h⟩

/-- **C66**, matrices: a bag whose rows differ in length is refused. -/
theorem C66_matrix_ragged [Zero K] (be : Backend) (rows : List (List K)) (b : PBag K)
    (hb : SaysRows "Matrix" rows b) (hn : ∃ l ∈ rows, ∃ l' ∈ rows, l.length ≠ l'.length)
    (old : DynMat K) : ∃ a, composeMat be b old = .ok (false, a) := by
  obtain ⟨a, h⟩ := composeMatLoop_ragged_start be hb hn old
  exact ⟨a, by rw [composeMat, if_pos hb.1, hb.2.1]; exact h⟩

/-- A bag with rows `1` and `2 3`. -/
example (be : Backend) (old : DynMat ℚ) : ∃ a, composeMat be ⟨"Matrix",
    [("1", .bag "RowVector" [("1", .num 1)]),
     ("2", .bag "RowVector" [("1", .num 2), ("2", .num 3)])]⟩ old = .ok (false, a) := by
  refine C66_matrix_ragged be [[1], [2, 3]] _ ⟨rfl, rfl, ?_⟩ ⟨[1], by simp, [2, 3], by simp, by simp⟩
    old
  intro i hi
  have : i = 0 ∨ i = 1 := by simp at hi; omega
  rcases this with rfl | rfl
  · refine ⟨⟨"RowVector", [("1", .num 1)]⟩, by simp; decide, rfl, rfl, ?_⟩
    intro j hj
    have : j = 0 := by simp at hj; omega
    subst this
    simp; decide
  · refine ⟨⟨"RowVector", [("1", .num 2), ("2", .num 3)]⟩, by simp; decide, rfl, rfl, ?_⟩
    intro j hj
    have : j = 0 ∨ j = 1 := by simp at hj; omega
    rcases this with rfl | rfl <;> simp <;> decide

/-- **C66**, symmetric matrices: a refused bag leaves the matrix as it was, and a bag whose rows
differ in length is refused. -/
theorem C66_sym_refused [Zero K] (be : Backend) (b : PBag K) (old : DynMat K) :
    (∀ a, composeSym be b old = .ok (false, a) → a = old) ∧
    ∀ rows : List (List K), SaysRows "SymmetricMatrix" rows b →
      (∃ l ∈ rows, ∃ l' ∈ rows, l.length ≠ l'.length) → composeSym be b old = .ok (false, old) := by
  constructor
  · intro a h
    unfold composeSym at h
    split at h
    · simp only [Outcome.bind_eq_ok, Prod.exists] at h
      obtain ⟨good, m, _, h2⟩ := h
      cases good with
      | false => simpa using h2.symm
      | true =>
        simp only [Outcome.bind_eq_ok, Outcome.pure_eq, Outcome.ok.injEq, Prod.mk.injEq] at h2
        obtain ⟨_, _, h3, _⟩ := h2
        simp at h3
    · simpa using h.symm
  · intro rows hb hn
    obtain ⟨a, h⟩ := composeMatLoop_ragged_start be hb hn .empty
    simp only [composeSym, if_pos hb.1, hb.2.1, h, Outcome.ok_bind]

/-- A bag with one number too few in its second row. -/
example (be : Backend) (old : DynMat ℚ) : composeSym be ⟨"SymmetricMatrix",
    [("1", .bag "RowVector" [("1", .num 1), ("2", .num 2)]),
     ("2", .bag "RowVector" [("1", .num 2)])]⟩ old = .ok (false, old) := by
  refine (C66_sym_refused be _ old).2 [[1, 2], [2]] ⟨rfl, rfl, ?_⟩
    ⟨[1, 2], by simp, [2], by simp, by simp⟩
  intro i hi
  have : i = 0 ∨ i = 1 := by simp at hi; omega
  rcases this with rfl | rfl
  · refine ⟨⟨"RowVector", [("1", .num 1), ("2", .num 2)]⟩, by simp; decide, rfl, rfl, ?_⟩
    intro j hj
    have : j = 0 ∨ j = 1 := by simp at hj; omega
    rcases this with rfl | rfl <;> simp <;> decide
  · refine ⟨⟨"RowVector", [("1", .num 2)]⟩, by simp; decide, rfl, rfl, ?_⟩
    intro j hj
    have : j = 0 := by simp at hj; omega
    subst this
    simp; decide

section Numbers

variable [Field K] [LinearOrder K]

/-- **C66**, probabilities: a probability is written and read back unchanged. -/
theorem C66_probability (p : K) (hp : 0 ≤ p) (old : K) :
    composeProb (decomposeProb p .fresh) old = .ok (true, p) := by
  have h1 : (decomposeProb p .fresh).getNum "Probability" = some p := rfl
  rw [composeProb, h1]
  simp only [mkProb, if_pos hp, Outcome.ok_bind]
  rfl

/-- **C66**, probabilities: a negative number in a bag is not refused but ends the program, and the
type of the bag is not looked at. -/
theorem C66_probability_negative (t : String) (x old : K) (hx : x < 0) :
    composeProb ⟨t, [("Probability", .num x)]⟩ old = .abort := by
  have h1 : PBag.getNum (K := K) ⟨t, [("Probability", .num x)]⟩ "Probability" = some x := rfl
  rw [composeProb, h1]
  simp only [mkProb, if_neg (not_le.mpr hx)]
  rfl

/-- **C66**, probabilities: a bag without a number called `Probability` is refused and the
probability keeps its value. -/
theorem C66_probability_missing (b : PBag K) (old : K)
    (h : ∀ x, ("Probability", PVal.num x) ∉ b.items) : composeProb b old = .ok (false, old) := by
  have h1 : b.getNum "Probability" = none := by
    simp only [PBag.getNum]
    split
    · next x hx => exact absurd (PBag.mem_of_find hx) (h x)
    · rfl
  rw [composeProb, h1]

example : composeProb (⟨"Probability", [("probability", .num (1/2))]⟩ : PBag ℚ) 1 = .ok (false, 1) :=
  C66_probability_missing _ _ (by simp)

/-- **C66**, weighted samples of column vectors: a sample whose weight has been set, to a
non-negative number, is written and read back unchanged. -/
theorem C66_weighted_sample (be : Backend) (l : List K) (w : K) (hw : 0 ≤ w)
    (old : WSample K (Vec K)) :
    ∃ b, decomposeWSample ⟨l.map some, some w⟩ .fresh = .ok b ∧
      composeWSample be b old = .ok (true, ⟨l.map some, some w⟩) := by
  have h0 : cassert ((PBag.fresh : PBag K).items = []) = .ok () := cassert_true rfl
  obtain ⟨b, hb⟩ : ∃ b : PBag K, b = ⟨"WeightedSample",
    [("WeightedSampleValue", .bag "ColumnVector" (named 0 l)), ("WeightedSampleWeight", .num w)]⟩ :=
    ⟨_, rfl⟩
  refine ⟨b, by simp only [decomposeWSample, h0, decomposeVec_ok, WSample.weightGet,
    Outcome.ok_bind, hb]; rfl, ?_⟩
  have h1 : b.getBag "WeightedSampleValue" = some ⟨"ColumnVector", named 0 l⟩ := by rw [hb]; rfl
  have h2 : b.getNum "WeightedSampleWeight" = some w := by
    rw [hb]; simp [PBag.getNum, PBag.find]
  rw [composeWSample, if_pos (by rw [hb]), h1]
  simp only [composeVec_ok be (named_says "ColumnVector" l), Outcome.ok_bind, composeWeight, h2,
    WSample.weightSet, cassert_true hw, Outcome.pure_eq]

end Numbers

/-! ## C67: row access from scripts -/

/-- **C67**, vectors: the operator `[]` gives entry number `index`, counted from one, and "not a
number" for every other index. -/
theorem C67_vector (l : List K) :
    (∀ i : Fin l.length, toolkitVecIndex (l.map some) (i + 1) = .ok (some l[i])) ∧
    ∀ i : Int, i < 1 ∨ l.length < i → toolkitVecIndex (l.map some) i = .ok none := by
  constructor
  · intro i
    have h1 : ¬ ((i : Int) + 1 > ((l.map some).length : Nat) ∨ (i : Int) + 1 < 1) := by
      have := i.2
      simp only [List.length_map]
      omega
    have h2 : ((i : Int) + 1).toNat = i.val + 1 := by omega
    rw [toolkitVecIndex, if_neg h1, h2, Vec.get_of_lt l i.2]
    rfl
  · intro i hi
    rw [toolkitVecIndex, if_pos (by simp only [List.length_map]; omega)]

/-- **C67**, matrices, newer typekit, Eigen back end: indices from zero give the rows. -/
theorem C67_typekit_eigen (m : Matrix (Fin r) (Fin c) K) : RowAccess 0 m (typekitRow .eigen m) := by
  constructor
  · intro i
    have h2 : ((0 : Int) + i).toNat = i.val := by omega
    rw [typekitRow, if_neg (by omega), h2, Mat.index, Mat.rowCopy, dif_pos i.2]
    rfl
  · intro i hi
    rw [typekitRow, if_pos (by omega)]

/-- **C67**, matrices, newer typekit, Boost back end, and symmetric matrices under both back ends:
what holds. Index `i` gives row `i`, counted from one, for every row but the last, and the indices
outside `0, ..., rows - 1` are refused. -/
theorem C67_typekit_boost_partial (m : Matrix (Fin r) (Fin c) K) (s : Matrix (Fin r) (Fin r) K) :
    (∀ i : Fin r, i.val + 1 < r →
      typekitRow .boost m (i + 1) = .ok (some ((List.ofFn (m i)).map some)) ∧
      typekitSymRow s (i + 1) = .ok (some ((List.ofFn (s i)).map some))) ∧
    ∀ i : Int, i < 0 ∨ r ≤ i → typekitRow .boost m i = .ok none ∧ typekitSymRow s i = .ok none := by
  constructor
  · intro i hi
    have h2 : ((i : Int) + 1).toNat = i.val + 1 := by omega
    constructor
    · rw [typekitRow, if_neg (by omega), h2, Mat.index, rowCopy_boost]
      rfl
    · rw [typekitSymRow, if_neg (by omega), h2, Mat.symRowCopy,
        Mat.copyEntries_ok fun j => Mat.get_of s i j]
      rfl
  · intro i hi
    rw [typekitRow, typekitSymRow, if_pos (by omega), if_pos (by omega)]
    exact ⟨rfl, rfl⟩

/-- **C67**, same case: the claim is false for every matrix that is not empty. Index `0` passes the
check and reads outside the matrix, so no choice of the first index gives a faithful row access. -/
theorem C67_typekit_boost_false (m : Matrix (Fin r) (Fin c) K) (s : Matrix (Fin r) (Fin r) K)
    (hr : 0 < r) (hc : 0 < c) :
    typekitRow .boost m 0 = .ub ∧ typekitSymRow s 0 = .ub ∧
    (∀ first, ¬ RowAccess first m (typekitRow .boost m)) ∧
    ∀ first, ¬ RowAccess first s (typekitSymRow s) := by
  have h1 : typekitRow .boost m 0 = .ub := by
    rw [typekitRow, if_neg (by omega)]
    have : Mat.rowCopy .boost m 0 = .ub := Mat.copyEntries_ub hc (Mat.get_ub m (by omega))
    simp only [Mat.index, Int.toNat_zero, this, Outcome.ub_bind]
  have h2 : typekitSymRow s 0 = .ub := by
    rw [typekitSymRow, if_neg (by omega)]
    have : Mat.symRowCopy s 0 = .ub := Mat.copyEntries_ub hr (Mat.get_ub s (by omega))
    simp only [Int.toNat_zero, this, Outcome.ub_bind]
  have key : ∀ {c' : Nat} (m' : Matrix (Fin r) (Fin c') K) (f : Int → Outcome (Option (Vec K))) first,
      f 0 = .ub → ¬ RowAccess first m' f := by
    intro c' m' f first hf h
    by_cases h0 : (0 : Int) < first ∨ first + r ≤ 0
    · have := h.2 0 h0
      rw [hf] at this; cases this
    · have := h.1 ⟨(-first).toNat, by omega⟩
      rw [show first + ((⟨(-first).toNat, by omega⟩ : Fin r) : Nat) = 0 by simp only; omega, hf] at this
      cases this
  exact ⟨h1, h2, fun first => key m _ first h1, fun first => key s _ first h2⟩

/-- **C67**, older toolkit, Boost back end, and symmetric matrices under both back ends: what
holds. Every index gives row `index`, counted from one, or is refused; only the last row of those
that exist is refused. -/
theorem C67_toolkit_boost_partial (m : Matrix (Fin r) (Fin c) K) (s : Matrix (Fin r) (Fin r) K) :
    (∀ i : Fin r, i.val + 1 < r →
      toolkitRow .boost m (i + 1) = .ok (some ((List.ofFn (m i)).map some)) ∧
      toolkitSymRow s (i + 1) = .ok (some ((List.ofFn (s i)).map some))) ∧
    ∀ i : Int, i < 1 ∨ r ≤ i → toolkitRow .boost m i = .ok none ∧ toolkitSymRow s i = .ok none := by
  constructor
  · intro i hi
    have h2 : ((i : Int) + 1).toNat = i.val + 1 := by omega
    constructor
    · rw [toolkitRow, if_pos (by omega), h2, Mat.index, rowCopy_boost]
      rfl
    · rw [toolkitSymRow, if_pos (by omega), h2, Mat.symRowCopy,
        Mat.copyEntries_ok fun j => Mat.get_of s i j]
      rfl
  · intro i hi
    rw [toolkitRow, toolkitSymRow, if_neg (by omega), if_neg (by omega)]
    exact ⟨rfl, rfl⟩

/-- **C67**, older toolkit, Eigen back end: what holds. Index `i` gives row `i + 1`, counted from
one, for every row but the first; all other indices are refused. -/
theorem C67_toolkit_eigen_partial (m : Matrix (Fin r) (Fin c) K) :
    (∀ i : Fin r, 0 < i.val → toolkitRow .eigen m i = .ok (some ((List.ofFn (m i)).map some))) ∧
    ∀ i : Int, i < 1 ∨ r ≤ i → toolkitRow .eigen m i = .ok none := by
  constructor
  · intro i hi
    rw [toolkitRow, if_pos (by omega), Int.toNat_natCast, Mat.index, Mat.rowCopy, dif_pos i.2]
    rfl
  · intro i hi
    rw [toolkitRow, if_neg (by omega)]

/-- **C67**, older toolkit: the claim is false under every back end for every matrix with a row: the
number of indices that are accepted is one less than the number of rows, so some row is out of
reach. -/
theorem C67_toolkit_false (be : Backend) (m : Matrix (Fin r) (Fin c) K)
    (s : Matrix (Fin r) (Fin r) K) (hr : 0 < r) :
    (∀ first, ¬ RowAccess first m (toolkitRow be m)) ∧
    ∀ first, ¬ RowAccess first s (toolkitSymRow s) := by
  have key : ∀ {c' : Nat} (m' : Matrix (Fin r) (Fin c') K) (f : Int → Outcome (Option (Vec K))) first,
      (∀ i : Int, i < 1 ∨ r ≤ i → f i = .ok none) → ¬ RowAccess first m' f := by
    intro c' m' f first hf h
    by_cases h0 : first < 1
    · have := h.1 ⟨0, hr⟩
      rw [hf _ (by left; simp only; omega)] at this; cases this
    · have := h.1 ⟨r - 1, by omega⟩
      rw [hf _ (by right; simp only; omega)] at this; cases this
  refine ⟨fun first => key m _ first fun i hi => ?_,
    fun first => key s _ first fun i hi => ?_⟩
  · rw [toolkitRow, if_neg (by omega)]
  · rw [toolkitSymRow, if_neg (by omega)]

/-! Concrete cases. -/

/-- A bag with its items in another order than `decomposeVec` writes them. -/
example : SaysVec "RowVector" [(3 : ℚ), 4] ⟨"RowVector", [("2", .num 4), ("1", .num 3)]⟩ := by
  refine ⟨rfl, rfl, fun i hi => ?_⟩
  simp only [List.length_cons, List.length_nil] at hi
  obtain rfl | rfl : i = 0 ∨ i = 1 := by omega
  · exact List.mem_cons_of_mem _ (List.mem_singleton.mpr rfl)
  · exact List.mem_cons_self

example : composeVec .eigen "ColumnVector"
    ⟨"ColumnVector", [("2", .num (4 : ℚ)), ("1", .num 3)]⟩ [] = .ok (true, [some 3, some 4]) := by
  decide +kernel
example : composeVec .boost "ColumnVector"
    ⟨"ColumnVector", [("3", .num (4 : ℚ)), ("1", .num 3)]⟩ [] = .ub := by decide +kernel
example : SaysMat "SymmetricMatrix" !![(2 : ℚ), 1; 1, 3]
    ⟨"SymmetricMatrix", namedRows !![(2 : ℚ), 1; 1, 3] 2 0⟩ := namedRows_says _ _
example : typekitRow .boost !![(1 : ℚ), 2; 3, 4] 1 = .ok (some [some 1, some 2]) := by decide +kernel
example : typekitRow .eigen !![(1 : ℚ), 2; 3, 4] 1 = .ok (some [some 3, some 4]) := by decide +kernel
example : toolkitRow .boost !![(1 : ℚ), 2; 3, 4] 2 = .ok none := by decide +kernel
example : toolkitVecIndex [some (5 : ℚ), some 6] 2 = .ok (some 6) := by decide +kernel

end BFL.Props
