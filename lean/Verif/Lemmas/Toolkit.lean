import Verif.Spec.Toolkit
import Verif.Lemmas.VectorWrapper
import Mathlib.Data.List.Nodup
import Mathlib.Data.List.OfFn
import Mathlib.Data.List.Perm.Subperm
import Mathlib.Data.List.FinRange

/-!
# Lemmas about property bags
-/

set_option linter.unusedSectionVars false

namespace BFL

open Spec

variable {K : Type}

theorem itemName_inj {a b : Nat} (h : itemName a = itemName b) : a = b := by
  have h1 : Nat.toDigits 10 a = Nat.toDigits 10 b := by
    have := congrArg String.toList h
    simpa [itemName] using this
  have := congrArg (fun l => Nat.ofDigitChars 10 l 0) h1
  simpa using this

namespace PBag

theorem find_of_mem {l : List (String × PVal K)} (hn : (l.map Prod.fst).Nodup) {n : String}
    {v : PVal K} (h : (n, v) ∈ l) : find n l = some v := by
  induction l with
  | nil => simp at h
  | cons a l ih =>
    obtain ⟨m, w⟩ := a
    simp only [List.map_cons, List.nodup_cons] at hn
    rcases List.mem_cons.mp h with h | h
    · cases h
      simp [find]
    · have : m ≠ n := by
        rintro rfl
        exact hn.1 (List.mem_map.mpr ⟨_, h, rfl⟩)
      simp [find, this, ih hn.2 h]

theorem mem_of_find {l : List (String × PVal K)} {n : String} {v : PVal K}
    (h : find n l = some v) : (n, v) ∈ l := by
  induction l with
  | nil => simp [find] at h
  | cons a l ih =>
    obtain ⟨m, w⟩ := a
    simp only [find] at h
    split at h
    · next e => simp_all
    · exact List.mem_cons_of_mem _ (ih h)

/-- `n` items that include the names `"1"` to `"n"`: every name occurs once. -/
theorem names_nodup {l : List (String × PVal K)} {n : Nat} (hl : l.length = n)
    (h : ∀ i < n, itemName (i + 1) ∈ l.map Prod.fst) : (l.map Prod.fst).Nodup := by
  have h1 : ((List.range n).map fun i => itemName (i + 1)).Nodup :=
    List.Nodup.map (fun a b e => by have := itemName_inj e; omega) List.nodup_range
  have h2 : ((List.range n).map fun i => itemName (i + 1)).Subperm (l.map Prod.fst) := by
    apply List.subperm_of_subset h1
    intro x hx
    obtain ⟨i, hi, rfl⟩ := List.mem_map.mp hx
    exact h i (List.mem_range.mp hi)
  have h3 := h2.perm_of_length_le (by simp [hl])
  exact h3.nodup_iff.mp h1

theorem getNum_says {tn : String} {l : List K} {b : PBag K} (h : SaysVec tn l b) {i : Nat}
    (hi : i < l.length) : b.getNum (itemName (i + 1)) = some l[i] := by
  have hn : (b.items.map Prod.fst).Nodup := names_nodup h.2.1 fun i hi =>
    List.mem_map.mpr ⟨_, h.2.2 i hi, rfl⟩
  have := find_of_mem hn (h.2.2 i hi)
  simp only [getNum]
  rw [show itemName (i + 1) = toString (i + 1) from rfl, this]

theorem getBag_says {r c : Nat} {tn : String} {m : Matrix (Fin r) (Fin c) K} {b : PBag K}
    (h : SaysMat tn m b) (i : Fin r) :
    ∃ rb, b.getBag (itemName (i.val + 1)) = some rb ∧ SaysVec "RowVector" (List.ofFn (m i)) rb := by
  have hn : (b.items.map Prod.fst).Nodup := names_nodup h.2.1 fun i hi => by
    obtain ⟨rb, h1, _⟩ := h.2.2 ⟨i, hi⟩
    exact List.mem_map.mpr ⟨_, h1, rfl⟩
  obtain ⟨rb, h1, h2⟩ := h.2.2 i
  refine ⟨rb, ?_, h2⟩
  have := find_of_mem hn h1
  simp only [getBag]
  rw [show itemName (i.val + 1) = toString (i.val + 1) from rfl, this]

end PBag

/-! ## Vectors -/

/-- The items for the entries `l`, of which the first has the number `i + 1`. -/
def named : Nat → List K → List (String × PVal K)
  | _, [] => []
  | i, x :: l => (itemName (i + 1), .num x) :: named (i + 1) l

theorem named_length (l : List K) : ∀ i, (named i l).length = l.length := by
  induction l with
  | nil => intro i; rfl
  | cons x l ih => intro i; simp [named, ih]

theorem named_mem (l : List K) : ∀ (j i : Nat) (h : i < l.length),
    (itemName (j + i + 1), PVal.num l[i]) ∈ named j l := by
  induction l with
  | nil => intro j i h; simp at h
  | cons x l ih =>
    intro j i h
    cases i with
    | zero => simp [named]
    | succ i =>
      have := ih (j + 1) i (by simpa using h)
      rw [show j + 1 + i + 1 = j + (i + 1) + 1 by omega] at this
      exact List.mem_cons_of_mem _ this

theorem decomposeVecLoop_ok (l : List K) : ∀ (pre : List K) (b : PBag K),
    decomposeVecLoop ((pre ++ l).map some) l.length (pre.length + 1) b
      = .ok ⟨b.type, b.items ++ named pre.length l⟩ := by
  induction l with
  | nil => intro pre b; simp [decomposeVecLoop, named]
  | cons x l ih =>
    intro pre b
    have h1 : Vec.get ((pre ++ x :: l).map some) (pre.length + 1) = .ok x := by
      rw [Vec.get_of_lt _ (by simp)]
      simp
    simp only [List.length_cons, decomposeVecLoop, h1, Outcome.ok_bind]
    have h2 := ih (pre ++ [x]) (b.add (itemName (pre.length + 1)) (.num x))
    simp only [List.append_assoc, List.singleton_append, List.length_append, List.length_singleton]
      at h2
    rw [h2]
    simp [PBag.add, named, List.append_assoc]

theorem decomposeVec_ok (tn : String) (l : List K) (b : PBag K) :
    decomposeVec tn (l.map some) b = .ok ⟨tn, b.items ++ named 0 l⟩ := by
  have := decomposeVecLoop_ok l [] { b with type := tn }
  simpa [decomposeVec] using this

theorem named_says (tn : String) (l : List K) : SaysVec tn l ⟨tn, named 0 l⟩ := by
  refine ⟨rfl, named_length l 0, fun i hi => ?_⟩
  have := named_mem l 0 i hi
  rwa [show itemName (0 + i + 1) = toString (i + 1) by simp [itemName]] at this

theorem composeVecLoop_ok {tn : String} {l : List K} {b : PBag K} (h : SaysVec tn l b) :
    ∀ (k : Nat) (p q : Vec K), q.length = k → p.length + k = l.length →
    composeVecLoop b k (p.length + 1) (p ++ q) = .ok (p ++ (l.drop p.length).map some) := by
  intro k
  induction k with
  | zero =>
    intro p q hq hp
    have : q = [] := List.length_eq_zero_iff.mp hq
    subst this
    simp [composeVecLoop, ← hp]
  | succ k ih =>
    intro p q hq hp
    obtain ⟨e, q, rfl⟩ : ∃ e q', q = e :: q' := by
      cases q with
      | nil => simp at hq
      | cons a b => exact ⟨a, b, rfl⟩
    have hi : p.length < l.length := by omega
    have h1 := PBag.getNum_says h hi
    simp only [composeVecLoop, h1, Vec.put_mid, Outcome.ok_bind]
    have h2 := ih (p ++ [some l[p.length]]) q (by simpa using hq) (by simp; omega)
    simp only [List.length_append, List.length_singleton, List.append_assoc,
      List.singleton_append] at h2
    rw [h2, List.drop_eq_getElem_cons hi, List.map_cons]

theorem resize_length [Zero K] (be : Backend) (v : Vec K) (n : Nat) :
    (v.resize be n).length = n := by
  cases be
  · simp [Vec.resize]; omega
  · simp only [Vec.resize]
    split
    · next h => exact h.symm
    · simp [Vec.alloc]

theorem composeVec_ok [Zero K] (be : Backend) {tn : String} {l : List K} {b : PBag K}
    (h : SaysVec tn l b) (v : Vec K) : composeVec be tn b v = .ok (true, l.map some) := by
  have h1 := composeVecLoop_ok h l.length [] (v.resize be l.length) (resize_length _ _ _) (by simp)
  simp only [List.length_nil, List.nil_append, List.drop_zero] at h1
  simp only [composeVec, if_pos h.1, h.2.1]
  rw [h1]
  rfl

theorem put_ok_of_lt (v : Vec K) {i : Nat} (x : K) (h : i < v.length) :
    ∃ v', v.put (i + 1) x = .ok v' ∧ v'.length = v.length :=
  ⟨v.set i (some x), vset_of_lt h, by simp⟩

theorem composeVecLoop_ub (b : PBag K) : ∀ (k i : Nat) (v : Vec K), v.length = i + k →
    (∃ j, i ≤ j ∧ j < i + k ∧ b.getNum (itemName (j + 1)) = none) →
    composeVecLoop b k (i + 1) v = .ub := by
  intro k
  induction k with
  | zero => rintro i v _ ⟨j, h1, h2, _⟩; omega
  | succ k ih =>
    rintro i v hv ⟨j, h1, h2, h3⟩
    simp only [composeVecLoop]
    split
    · rfl
    · next x hx =>
      obtain ⟨v', h4, h5⟩ := put_ok_of_lt v x (show i < v.length by omega)
      rw [h4, Outcome.ok_bind]
      refine ih (i + 1) v' (by omega) ⟨j, ?_, by omega, h3⟩
      rcases Nat.lt_or_ge i j with h | h
      · omega
      · have : j = i := by omega
        subst this
        rw [h3] at hx; cases hx

/-! ## Matrices -/

variable {r c : Nat}

theorem rowCopy_boost (m : Matrix (Fin r) (Fin c) K) (i : Fin r) :
    Mat.rowCopy .boost m (i + 1) = .ok ((List.ofFn (m i)).map some) :=
  Mat.copyEntries_ok fun j => Mat.get_of m i j

/-- The items for the `k` rows from row `i` on (counted from zero). -/
def namedRows (m : Matrix (Fin r) (Fin c) K) : Nat → Nat → List (String × PVal K)
  | 0, _ => []
  | k + 1, i =>
    (if h : i < r then [(itemName (i + 1), .bag "RowVector" (named 0 (List.ofFn (m ⟨i, h⟩))))]
      else []) ++ namedRows m k (i + 1)

theorem namedRows_length (m : Matrix (Fin r) (Fin c) K) : ∀ k i, i + k = r →
    (namedRows m k i).length = k := by
  intro k
  induction k with
  | zero => intro i _; rfl
  | succ k ih =>
    intro i h
    simp only [namedRows, dif_pos (show i < r by omega), List.length_append,
      List.length_singleton, ih (i + 1) (by omega)]
    omega

theorem namedRows_mem (m : Matrix (Fin r) (Fin c) K) : ∀ k i, ∀ j : Fin r, i ≤ j.val → j.val < i + k →
    (itemName (j.val + 1), PVal.bag "RowVector" (named 0 (List.ofFn (m j)))) ∈ namedRows m k i := by
  intro k
  induction k with
  | zero => intro i j h1 h2; omega
  | succ k ih =>
    intro i j h1 h2
    simp only [namedRows]
    rcases Nat.lt_or_ge i j.val with h | h
    · exact List.mem_append_right _ (ih (i + 1) j h (by omega))
    · have : i = j.val := by omega
      subst this
      apply List.mem_append_left
      rw [dif_pos j.2]
      simp

theorem decomposeMatLoop_boost (m : Matrix (Fin r) (Fin c) K) : ∀ (k i : Nat) (b : PBag K),
    i + k = r → decomposeMatLoop .boost m k (i + 1) b
      = .ok ⟨b.type, b.items ++ namedRows m k i⟩ := by
  intro k
  induction k with
  | zero => intro i b _; simp [decomposeMatLoop, namedRows]
  | succ k ih =>
    intro i b h
    have hi : i < r := by omega
    have h1 := rowCopy_boost m ⟨i, hi⟩
    simp only [decomposeMatLoop]
    rw [show Mat.rowCopy .boost m (i + 1) = .ok ((List.ofFn (m ⟨i, hi⟩)).map some) from h1]
    simp only [Outcome.ok_bind, decomposeVec_ok]
    rw [ih (i + 1) _ (by omega)]
    simp [PBag.add, namedRows, hi, PBag.fresh]

theorem namedRows_says (tn : String) (m : Matrix (Fin r) (Fin c) K) :
    SaysMat tn m ⟨tn, namedRows m r 0⟩ := by
  refine ⟨rfl, namedRows_length m r 0 (by omega), fun i => ?_⟩
  exact ⟨⟨"RowVector", named 0 (List.ofFn (m i))⟩, namedRows_mem m r 0 i (by omega) (by omega),
    named_says _ _⟩

theorem decomposeMat_boost (tn : String) (m : Matrix (Fin r) (Fin c) K) :
    decomposeMat .boost tn m .fresh = .ok ⟨tn, namedRows m r 0⟩ := by
  have := decomposeMatLoop_boost m r 0 ⟨tn, []⟩ (by omega)
  simpa [decomposeMat, PBag.fresh] using this

theorem decomposeMatLoop_eigen (m : Matrix (Fin r) (Fin c) K) : ∀ (k i : Nat) (b : PBag K),
    i + k = r → decomposeMatLoop .eigen m (k + 1) i b = .ub := by
  intro k
  induction k with
  | zero =>
    intro i b h
    simp only [decomposeMatLoop, Mat.rowCopy]
    rw [dif_neg (by omega)]
    rfl
  | succ k ih =>
    intro i b h
    simp only [decomposeMatLoop, Mat.rowCopy]
    rw [dif_pos (show i < r by omega)]
    simp only [Outcome.ok_bind, decomposeVec_ok]
    exact ih (i + 1) _ (by omega)

theorem putRow_ok (i : Nat) (l : List K) : ∀ (k j : Nat) (a : DynMat K), i < a.rows →
    j + k = l.length → l.length = a.cols →
    ∃ a', a.putRow (i + 1) (l.map some) k (j + 1) = .ok a' ∧ a'.rows = a.rows ∧ a'.cols = a.cols ∧
      (∀ x y, x ≠ i ∨ y < j → a'.entry x y = a.entry x y) ∧
      ∀ y (_ : j ≤ y) (h : y < l.length), a'.entry i y = some l[y] := by
  intro k
  induction k with
  | zero =>
    intro j a _ h _
    exact ⟨a, rfl, rfl, rfl, fun _ _ _ => rfl, fun y h1 h2 => absurd h2 (by omega)⟩
  | succ k ih =>
    intro j a hi hj hc
    have hjl : j < l.length := by omega
    simp only [DynMat.putRow, Vec.get_of_lt l hjl, Outcome.ok_bind]
    rw [DynMat.put, if_pos (by omega)]
    simp only [Outcome.ok_bind, Nat.add_sub_cancel]
    obtain ⟨a', h1, h2, h3, h4, h5⟩ := ih (j + 1)
      { a with entry := fun x y => if x = i ∧ y = j then some l[j] else a.entry x y } hi
      (by omega) hc
    refine ⟨a', h1, h2, h3, fun x y hxy => ?_, fun y hy hyl => ?_⟩
    · rw [h4 x y (by omega)]
      simp only
      rw [if_neg (by omega)]
    · rcases Nat.lt_or_ge j y with h | h
      · exact h5 y h hyl
      · have : y = j := by omega
        subst this
        rw [h4 i y (by omega)]
        simp

theorem composeMatLoop_ok [Zero K] (be : Backend) {tn : String} {m : Matrix (Fin r) (Fin c) K}
    {b : PBag K} (h : SaysMat tn m b) : ∀ (k i cols : Nat) (a : DynMat K), i + k = r →
    (0 < i → cols = c ∧ a.rows = r ∧ a.cols = c) →
    (∀ (x : Fin r) (y : Fin c), x.val < i → a.entry x y = some (m x y)) →
    (0 < r) →
    ∃ a', composeMatLoop be b r k (i + 1) cols a = .ok (true, a') ∧ (i = r → a' = a) ∧ IsMat m a' := by
  intro k
  induction k with
  | zero =>
    intro i cols a hi h1 h2 hr
    obtain ⟨_, h3, h4⟩ := h1 (by omega)
    exact ⟨a, rfl, fun _ => rfl, h3, h4, fun x y => h2 x y (by omega)⟩
  | succ k ih =>
    intro i cols a hi h1 h2 hr
    have hir : i < r := by omega
    obtain ⟨rb, hb, hs⟩ := PBag.getBag_says h ⟨i, hir⟩
    obtain ⟨l, hl⟩ : ∃ l, l = List.ofFn (m ⟨i, hir⟩) := ⟨_, rfl⟩
    have hll : l.length = c := by simp [hl]
    have hly : ∀ (y : Fin c) (hy : y.val < l.length), l[y.val] = m ⟨i, hir⟩ y := by
      intro y hy; subst hl; simp
    rw [← hl] at hs
    obtain ⟨a1, e1, h5, h6, h7⟩ : ∃ a1, sizeOfRow be r (i + 1) cols (l.map some) a = some (c, a1) ∧
        a1.rows = r ∧ a1.cols = c ∧
        ∀ (x : Fin r) (y : Fin c), x.val < i → a1.entry x y = a.entry x y := by
      by_cases hi0 : i = 0
      · refine ⟨a.resize be r c, by simp [sizeOfRow, hi0, hll], ?_, ?_, fun x y hx => by omega⟩
        · cases be
          · rfl
          · simp only [DynMat.resize]; split
            · next e => exact e.1
            · rfl
        · cases be
          · rfl
          · simp only [DynMat.resize]; split
            · next e => exact e.2
            · rfl
      · obtain ⟨h3, h4, h5⟩ := h1 (by omega)
        exact ⟨a, by simp [sizeOfRow, hi0, hll, h3], h4, h5, fun _ _ _ => rfl⟩
    obtain ⟨a2, e2, h8, h9, h10, h11⟩ := putRow_ok i l l.length 0 a1 (by omega) (by omega)
      (by omega)
    have hstep : composeMatLoop be b r (k + 1) (i + 1) cols a
        = composeMatLoop be b r k (i + 2) c a2 := by
      have hb' : b.getBag (itemName (i + 1)) = some rb := hb
      simp only [composeMatLoop, hb', composeVec_ok be hs, Outcome.ok_bind, e1, List.length_map]
      rw [e2]
      rfl
    obtain ⟨a', h12, h13, h14⟩ := ih (i + 1) c a2 (by omega)
      (fun _ => ⟨rfl, by omega, by omega⟩) (fun x y hx => by
        by_cases hxi : x.val = i
        · have := h11 y (by omega) (by omega)
          rw [show ((x : Fin r) : Nat) = i from hxi, this, hly]
          congr 2
          exact Fin.ext hxi.symm
        · rw [h10 x y (by omega), h7 x y (by omega), h2 x y (by omega)]) hr
    exact ⟨a', by rw [hstep]; exact h12, fun e => by omega, h14⟩

theorem getBag_rows {tn : String} {rows : List (List K)} {b : PBag K} (h : SaysRows tn rows b)
    {i : Nat} (hi : i < rows.length) :
    ∃ rb, b.getBag (itemName (i + 1)) = some rb ∧ SaysVec "RowVector" rows[i] rb := by
  have hn : (b.items.map Prod.fst).Nodup := PBag.names_nodup h.2.1 fun i hi => by
    obtain ⟨rb, h1, _⟩ := h.2.2 i hi
    exact List.mem_map.mpr ⟨_, h1, rfl⟩
  obtain ⟨rb, h1, h2⟩ := h.2.2 i hi
  refine ⟨rb, ?_, h2⟩
  have := PBag.find_of_mem hn h1
  simp only [PBag.getBag]
  rw [show itemName (i + 1) = toString (i + 1) from rfl, this]

theorem resize_size [Zero K] (be : Backend) (a : DynMat K) (r c : Nat) :
    (a.resize be r c).rows = r ∧ (a.resize be r c).cols = c := by
  cases be
  · exact ⟨rfl, rfl⟩
  · simp only [DynMat.resize]
    split
    · next e => exact e
    · exact ⟨rfl, rfl⟩

theorem composeMatLoop_ragged [Zero K] (be : Backend) {tn : String} {rows : List (List K)}
    {b : PBag K} (h : SaysRows tn rows b) : ∀ (k i cols : Nat) (a : DynMat K), i + k = rows.length →
    0 < i → a.rows = rows.length → a.cols = cols →
    (∃ j, i ≤ j ∧ ∃ hj : j < rows.length, rows[j].length ≠ cols) →
    ∃ a', composeMatLoop be b rows.length k (i + 1) cols a = .ok (false, a') := by
  intro k
  induction k with
  | zero => rintro i cols a hi _ _ _ ⟨j, h1, hj, _⟩; omega
  | succ k ih =>
    rintro i cols a hi hi0 hr hc ⟨j, h1, hj, h2⟩
    have hir : i < rows.length := by omega
    obtain ⟨rb, hb, hs⟩ := getBag_rows h hir
    by_cases hl : rows[i].length = cols
    · obtain ⟨a2, e2, h8, h9, _⟩ := putRow_ok i rows[i] rows[i].length 0 a (by omega) (by omega)
        (by omega)
      have e1 : sizeOfRow be rows.length (i + 1) cols (rows[i].map some) a = some (cols, a) := by
        simp [sizeOfRow, hl]; omega
      have hij : i ≠ j := by rintro rfl; exact h2 hl
      obtain ⟨a', h12⟩ := ih (i + 1) cols a2 (by omega) (by omega) (by omega) (by omega)
        ⟨j, by omega, hj, h2⟩
      refine ⟨a', ?_⟩
      simp only [composeMatLoop, hb, composeVec_ok be hs, Outcome.ok_bind, e1, List.length_map]
      rw [e2]
      exact h12
    · have e1 : sizeOfRow be rows.length (i + 1) cols (rows[i].map some) a = none := by
        simp [sizeOfRow, hl]; omega
      exact ⟨a, by simp only [composeMatLoop, hb, composeVec_ok be hs, Outcome.ok_bind, e1]⟩

theorem composeMatLoop_ragged_start [Zero K] (be : Backend) {tn : String} {rows : List (List K)}
    {b : PBag K} (h : SaysRows tn rows b) (hn : ∃ l ∈ rows, ∃ l' ∈ rows, l.length ≠ l'.length)
    (old : DynMat K) :
    ∃ a', composeMatLoop be b rows.length rows.length 1 0 old = .ok (false, a') := by
  obtain ⟨l, hl, l', hl', hne⟩ := hn
  obtain ⟨k, hk⟩ : ∃ k, rows.length = k + 1 :=
    ⟨rows.length - 1, by have := List.length_pos_of_mem hl; omega⟩
  have h0 : 0 < rows.length := by omega
  obtain ⟨rb, hb, hs⟩ := getBag_rows h h0
  have hs1 := resize_size be old rows.length rows[0].length
  obtain ⟨a2, e2, h8, h9, _⟩ := putRow_ok 0 rows[0] rows[0].length 0
    (old.resize be rows.length rows[0].length) (by omega) (by omega) (by omega)
  have hj : ∃ j, 1 ≤ j ∧ ∃ hj : j < rows.length, rows[j].length ≠ rows[0].length := by
    have key : ∀ x ∈ rows, x.length ≠ rows[0].length →
        ∃ j, 1 ≤ j ∧ ∃ hj : j < rows.length, rows[j].length ≠ rows[0].length := by
      intro x hx hxn
      obtain ⟨j, hj, rfl⟩ := List.getElem_of_mem hx
      refine ⟨j, ?_, hj, hxn⟩
      by_contra hc
      have : j = 0 := by omega
      subst this
      exact hxn rfl
    by_cases h1 : l.length = rows[0].length
    · exact key l' hl' fun h2 => hne (h1.trans h2.symm)
    · exact key l hl h1
  obtain ⟨a', h12⟩ := composeMatLoop_ragged be h k 1 rows[0].length a2 (by omega) (by omega)
    (by omega) (by omega) hj
  refine ⟨a', ?_⟩
  have e1 : sizeOfRow be rows.length 1 0 (rows[0].map some) old =
      some (rows[0].length, old.resize be rows.length rows[0].length) := by
    simp [sizeOfRow]
  conv_lhs => rw [show composeMatLoop be b rows.length rows.length 1 0 old =
    composeMatLoop be b rows.length (k + 1) 1 0 old by rw [← hk]]
  simp only [composeMatLoop, hb, composeVec_ok be hs, Outcome.ok_bind, e1, List.length_map]
  rw [e2]
  exact h12

theorem composeVec_accepted [Zero K] (be : Backend) {tn : String} {b : PBag K} {old v : Vec K}
    (h : composeVec be tn b old = .ok (true, v)) : ∃ l : List K, SaysVec tn l b ∧ v = l.map some := by
  have ht : b.type = tn := by
    by_contra hc
    rw [composeVec, if_neg hc] at h
    simp at h
  have hall : ∀ i < b.items.length, ∃ x, b.getNum (itemName (i + 1)) = some x := by
    intro i hi
    by_contra hc
    have hnone : b.getNum (itemName (i + 1)) = none := by
      cases hx : b.getNum (itemName (i + 1)) with
      | none => rfl
      | some x => exact absurd ⟨x, hx⟩ hc
    have h2 := composeVecLoop_ub b b.items.length 0 (old.resize be b.items.length)
      (by rw [resize_length]; omega) ⟨i, by omega, by omega, hnone⟩
    rw [composeVec, if_pos ht, h2] at h
    simp at h
  choose f hf using hall
  have hs : SaysVec tn (List.ofFn fun i : Fin b.items.length => f i i.2) b := by
    refine ⟨ht, by simp, fun i hi => ?_⟩
    simp only [List.length_ofFn] at hi
    have := hf i hi
    simp only [PBag.getNum] at this
    split at this
    · next x hx =>
      simp only [Option.some.injEq] at this
      have hm := PBag.mem_of_find hx
      rw [this] at hm
      simpa [itemName] using hm
    · simp at this
  refine ⟨_, hs, ?_⟩
  have h2 := composeVec_ok be hs old
  rw [h] at h2
  simpa using h2

theorem composeMatLoop_accepted [Zero K] (be : Backend) (b : PBag K) (R : Nat) :
    ∀ (k i cols : Nat) (a a' : DynMat K),
    composeMatLoop be b R k (i + 1) cols a = .ok (true, a') →
    ∃ c, (0 < i → c = cols) ∧ ∀ j, i ≤ j → j < i + k → ∃ (rb : PBag K) (l : List K),
      b.getBag (itemName (j + 1)) = some rb ∧ SaysVec "RowVector" l rb ∧ l.length = c := by
  intro k
  induction k with
  | zero => intro i cols a a' _; exact ⟨cols, fun _ => rfl, fun j h1 h2 => by omega⟩
  | succ k ih =>
    intro i cols a a' h
    simp only [composeMatLoop] at h
    cases hb : b.getBag (itemName (i + 1)) with
    | none => rw [hb] at h; simp at h
    | some rb =>
      rw [hb] at h
      simp only [Outcome.bind_eq_ok, Prod.exists] at h
      obtain ⟨good, row, h1, h2⟩ := h
      cases good with
      | false => simp at h2
      | true =>
        obtain ⟨l, hl, rfl⟩ := composeVec_accepted be h1
        simp only at h2
        cases hsz : sizeOfRow be R (i + 1) cols (l.map some) a with
        | none => rw [hsz] at h2; simp at h2
        | some p =>
          obtain ⟨cols', a1⟩ := p
          rw [hsz] at h2
          simp only [Outcome.bind_eq_ok] at h2
          obtain ⟨a2, _, h3⟩ := h2
          obtain ⟨c, hc, hrest⟩ := ih (i + 1) cols' a2 a' h3
          have hc' := hc (by omega)
          have hcl : l.length = cols' ∧ (0 < i → cols' = cols) := by
            unfold sizeOfRow at hsz
            split at hsz
            · simp only [Option.some.injEq, Prod.mk.injEq, List.length_map] at hsz
              exact ⟨hsz.1, fun hi => by omega⟩
            · split at hsz
              · simp at hsz
              · next hne =>
                simp only [Option.some.injEq, Prod.mk.injEq] at hsz
                simp only [List.length_map, not_not] at hne
                exact ⟨hne.trans hsz.1, fun _ => hsz.1.symm⟩
          refine ⟨c, fun hi => hc'.trans (hcl.2 hi), fun j hj1 hj2 => ?_⟩
          by_cases hij : j = i
          · subst hij
            exact ⟨rb, l, hb, hl, hcl.1.trans hc'.symm⟩
          · exact hrest j (by omega) (by omega)

end BFL
