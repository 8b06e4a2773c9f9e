import Verif.Model.VectorWrapper
import Mathlib.Tactic.Linarith

/-!
# Lemmas about the vector wrapper
-/

set_option linter.unusedSectionVars false

namespace BFL

variable {K : Type}

namespace Vec

theorem get_succ (l : List K) (i : Nat) :
    get (l.map some) (i + 1) = match l[i]? with | some x => .ok x | none => .ub := by
  simp only [get, vget, List.getElem?_map]
  cases l[i]? <;> rfl

theorem get_of_lt (l : List K) {i : Nat} (h : i < l.length) :
    get (l.map some) (i + 1) = .ok l[i] := by
  rw [get_succ, List.getElem?_eq_getElem h]

theorem get_of_ge (v : Vec K) {i : Nat} (h : v.length ≤ i) : v.get (i + 1) = .ub := by
  simp only [get, vget_of_ge h, Outcome.ub_bind]

theorem put_mid (p q : Vec K) (e : Option K) (x : K) :
    put (p ++ e :: q) (p.length + 1) x = .ok (p ++ some x :: q) := by
  simp only [put]
  rw [vset_of_lt (by simp)]
  simp

theorem put_of_ge (v : Vec K) {i : Nat} (x : K) (h : v.length ≤ i) : v.put (i + 1) x = .ub := by
  simp only [put, vset]
  rw [if_neg (by omega)]

theorem copyLoop_ok (off : Nat) (l : List K) : ∀ (pre : List K) (p q : Vec K) (e : Vec K),
    p.length = off + pre.length → e.length = l.length →
    copyLoop ((pre ++ l).map some) off l.length pre.length (p ++ e ++ q)
      = .ok (p ++ l.map some ++ q) := by
  induction l with
  | nil =>
    intro pre p q e _ he
    have : e = [] := List.length_eq_zero_iff.mp he
    simp [copyLoop, this]
  | cons x l ih =>
    intro pre p q e hp he
    obtain ⟨e0, e, rfl⟩ : ∃ e0 e', e = e0 :: e' := by
      cases e with
      | nil => simp at he
      | cons a b => exact ⟨a, b, rfl⟩
    have h1 : get ((pre ++ x :: l).map some) (pre.length + 1) = .ok x := by
      rw [get_of_lt _ (by simp)]
      simp
    have h2 : put (p ++ (e0 :: (e ++ q))) (off + pre.length + 1) x
        = .ok (p ++ some x :: (e ++ q)) := by
      rw [← hp]; exact put_mid _ _ _ _
    have h3 := ih (pre ++ [x]) (p ++ [some x]) q e (by simp [hp]; omega) (by simpa using he)
    simp only [List.length_cons, copyLoop, h1, Outcome.ok_bind]
    simp only [List.append_assoc, List.cons_append]
    rw [h2]
    simp only [Outcome.ok_bind]
    simpa [List.append_assoc] using h3

theorem joinBoost_ok (a b : List K) :
    joinBoost (a.map some) (b.map some) = .ok ((a ++ b).map some) := by
  have h1 := copyLoop_ok 0 a [] [] (alloc b.length) (alloc a.length) (by simp) (by simp [alloc])
  have h2 := copyLoop_ok a.length b [] (a.map some) [] (alloc b.length) (by simp) (by simp [alloc])
  have h0 : (alloc ((a.map some).length + (b.map some).length) : Vec K)
      = alloc a.length ++ alloc b.length := by simp [alloc]
  simp only [List.nil_append, List.append_nil, List.length_nil] at h1 h2
  simp only [joinBoost, h0]
  simp only [List.length_map, h1, Outcome.ok_bind, h2, List.map_append]

theorem setSegment_of {x v : Vec K} {start n : Nat} (h : start + n ≤ x.length)
    (hv : v.length = n) :
    x.setSegment start n v = .ok (x.take start ++ v ++ x.drop (start + n)) := by
  rw [setSegment, if_pos ⟨h, hv⟩]

theorem joinEigen_ok (a b : Vec K) : joinEigen a.length b.length a b = .ok (a ++ b) := by
  have h1 : (alloc (a.length + b.length) : Vec K).setSegment 0 a.length a
      = .ok (a ++ alloc b.length) := by
    rw [setSegment_of (by simp [alloc]) rfl]
    simp [alloc]
  have h2 : (a ++ alloc b.length).setSegment a.length b.length b = .ok (a ++ b) := by
    rw [setSegment_of (by simp [alloc]) rfl]
    simp [alloc]
  simp only [joinEigen, h1, Outcome.ok_bind, Nat.add_sub_cancel, h2]

theorem joinEigen_ub (n1 n2 : Nat) (a b : Vec K) (h : a.length ≠ n1 ∨ b.length ≠ n2) :
    joinEigen n1 n2 a b = .ub := by
  unfold joinEigen
  by_cases ha : a.length = n1
  · have hb : b.length ≠ n2 := by tauto
    rw [setSegment_of (by simp [alloc]) ha]
    simp only [Outcome.ok_bind, setSegment]
    rw [if_neg (by tauto)]
  · simp only [setSegment]
    rw [if_neg (by tauto)]
    rfl

theorem vectorAdd_ok (be : Backend) (a b : List K) :
    vectorAdd be (a.map some) (b.map some) = .ok ((a ++ b).map some) := by
  cases be with
  | boost => exact joinBoost_ok a b
  | eigen =>
    simp only [vectorAdd, joinEigen_ok, List.map_append]

theorem subLoop_ok (s : Nat) (l : List K) : ∀ (pre post : List K) (p : Vec K) (e : Vec K),
    pre.length + 1 = s + p.length → e.length = l.length →
    subLoop ((pre ++ l ++ post).map some) s l.length p.length (p ++ e)
      = .ok (p ++ l.map some) := by
  induction l with
  | nil =>
    intro pre post p e _ he
    have : e = [] := List.length_eq_zero_iff.mp he
    simp [subLoop, this]
  | cons x l ih =>
    intro pre post p e hp he
    obtain ⟨e0, e, rfl⟩ : ∃ e0 e', e = e0 :: e' := by
      cases e with
      | nil => simp at he
      | cons a b => exact ⟨a, b, rfl⟩
    have h1 : get ((pre ++ x :: l ++ post).map some) (s + p.length) = .ok x := by
      rw [← hp, get_of_lt _ (by simp)]
      simp
    have h3 := ih (pre ++ [x]) post (p ++ [some x]) e (by simp; omega) (by simpa using he)
    simp only [List.length_cons, subLoop, h1, Outcome.ok_bind, put_mid]
    simpa [List.append_assoc] using h3

/-- The entries `s` to `t` of a list, counted from one. -/
theorem split3 (l : List K) {s t : Nat} (h1 : 1 ≤ s) (h2 : s ≤ t + 1) :
    l = l.take (s - 1) ++ (l.take t).drop (s - 1) ++ l.drop t := by
  conv_lhs => rw [← List.take_append_drop t l]
  conv_lhs => rw [← List.take_append_drop (s - 1) (l.take t)]
  rw [List.take_take, min_eq_left (by omega)]

theorem sub_ok (be : Backend) (l : List K) {s t : Nat} (h1 : 1 ≤ s) (h2 : s ≤ t + 1)
    (h3 : t ≤ l.length) :
    sub be (l.map some) s t = .ok (((l.take t).drop (s - 1)).map some) := by
  have hlen : ((l.take t).drop (s - 1)).length = t + 1 - s := by
    rw [List.length_drop, List.length_take]; omega
  unfold sub
  rw [if_neg (by omega)]
  cases be with
  | boost =>
    have h := subLoop_ok s ((l.take t).drop (s - 1)) (l.take (s - 1)) (l.drop t) []
      (alloc (t + 1 - s)) (by rw [List.length_take, List.length_nil]; omega)
      (by simp only [alloc, List.length_replicate, hlen])
    rw [← split3 l h1 h2, hlen] at h
    simpa using h
  | eigen =>
    simp only [List.length_map]
    rw [if_pos (by omega), List.drop_take]
    simp only [← List.map_drop, ← List.map_take]
    rw [show t - (s - 1) = t + 1 - s by omega]

theorem get_ne_abort (v : Vec K) (i : Nat) : v.get i ≠ .abort := by
  cases i with
  | zero => simp [get]
  | succ i =>
    simp only [get, vget]
    cases v[i]? with
    | none => simp
    | some e => cases e <;> simp [readMember]

theorem put_ne_abort (v : Vec K) (i : Nat) (x : K) : v.put i x ≠ .abort := by
  cases i with
  | zero => simp [put]
  | succ i =>
    simp only [put, vset]
    split <;> simp

theorem subLoop_ub (v : Vec K) (s : Nat) : ∀ (k i : Nat) (res : Vec K) (j : Nat), j < k →
    v.get (s + i + j) = .ub → subLoop v s k i res = .ub := by
  intro k
  induction k with
  | zero => intro i res j hj; omega
  | succ k ih =>
    intro i res j hj hg
    simp only [subLoop]
    cases hx : v.get (s + i) with
    | abort => exact absurd hx (get_ne_abort _ _)
    | ub => rfl
    | ok x =>
      cases hy : put res (i + 1) x with
      | abort => exact absurd hy (put_ne_abort _ _ _)
      | ub => simp [hy]
      | ok res' =>
        simp only [Outcome.ok_bind, hy]
        cases j with
        | zero => rw [Nat.add_zero, hx] at hg; cases hg
        | succ j =>
          refine ih (i + 1) res' j (by omega) ?_
          rw [show s + (i + 1) + j = s + i + (j + 1) by omega]
          exact hg

theorem sub_ub (be : Backend) (v : Vec K) {s t : Nat} (h : s ≤ t) (hb : s = 0 ∨ v.length < t) :
    sub be v s t = .ub := by
  unfold sub
  rw [if_neg (by omega)]
  cases be with
  | boost =>
    rcases hb with rfl | hb
    · exact subLoop_ub v 0 _ 0 _ 0 (by omega) rfl
    · refine subLoop_ub v s _ 0 _ (t - s) (by omega) ?_
      obtain ⟨u, rfl⟩ : ∃ u, t = u + 1 := ⟨t - 1, by omega⟩
      rw [show s + 0 + (u + 1 - s) = u + 1 by omega]
      exact get_of_ge v (by omega)
  | eigen =>
    show (if _ then _ else _) = _
    rw [if_neg (by omega)]

theorem assignLoop_ub (x : K) : ∀ (k i : Nat) (v : Vec K), 1 ≤ k → v.length ≤ i + k →
    assignLoop x k i v = .ub := by
  intro k
  induction k with
  | zero => intro i v h; omega
  | succ k ih =>
    intro i v _ hv
    simp only [assignLoop]
    by_cases hi : i + 1 < v.length
    · rw [vset_of_lt hi]
      simp only [Outcome.ok_bind]
      exact ih (i + 1) _ (by omega) (by simp; omega)
    · simp only [vset, if_neg hi, Outcome.ub_bind]

theorem length_resize [Zero K] (be : Backend) (v : Vec K) (n : Nat) :
    (v.resize be n).length = n := by
  cases be with
  | boost => simp [resize]; omega
  | eigen =>
    simp only [resize]
    split
    · omega
    · simp [alloc]

end Vec

namespace Mat

variable {r c : Nat}

theorem get_of (m : Matrix (Fin r) (Fin c) K) (i : Fin r) (j : Fin c) :
    get m (i + 1) (j + 1) = .ok (m i j) := by
  rw [get, dif_pos (by omega)]
  rfl

theorem get_ub (m : Matrix (Fin r) (Fin c) K) {i j : Nat}
    (h : i = 0 ∨ r < i ∨ j = 0 ∨ c < j) : get m i j = .ub := by
  rw [get, dif_neg (by omega)]

theorem copyEntries_ok {n : Nat} {entry : Nat → Outcome K} {f : Fin n → K}
    (h : ∀ i : Fin n, entry i = .ok (f i)) : copyEntries n entry = .ok ((List.ofFn f).map some) := by
  cases n with
  | zero => simp [copyEntries, mapOutcome]
  | succ n =>
    have h1 : mapOutcome entry (List.range (n + 1)) = .ok (List.ofFn f) := by
      rw [mapOutcome_eq_ok (g := fun i => if hi : i < n + 1 then f ⟨i, hi⟩ else f 0)]
      · congr 1
        apply List.ext_getElem
        · simp
        · intro i h1 h2
          simp only [List.length_map, List.length_range] at h1
          simp only [List.getElem_map, List.getElem_range, List.getElem_ofFn, dif_pos h1]
      · intro a ha
        rw [List.mem_range] at ha
        simp only [ha, dif_pos]
        exact h ⟨a, ha⟩
    simp only [copyEntries, h1, Outcome.ok_bind, Outcome.pure_eq]

theorem copyEntries_ub {n : Nat} {entry : Nat → Outcome K} (hn : 0 < n)
    (h : entry 0 = .ub) : copyEntries n entry = .ub := by
  obtain ⟨k, rfl⟩ : ∃ k, n = k + 1 := ⟨n - 1, by omega⟩
  simp only [copyEntries, List.range_succ_eq_map, mapOutcome, h, Outcome.ub_bind]

end Mat

end BFL
