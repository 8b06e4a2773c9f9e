import Verif.Lemmas.ObjectClasses

/-! # What the implicit assignment operator does -/

set_option linter.unusedSectionVars false

namespace BFL

variable {K P T : Type} [Field K] [LinearOrder K]

namespace HeapImpl

variable {C O V A Op : Type}

theorem var_ok {objs : List (Option O)} {i : Nat} {o : O} :
    var objs i = .ok o ↔ objs[i]? = some (some o) := by
  unfold var
  split <;> simp_all

theorem assign_ok {s s1 : ClientState C O} {i j : Nat} (ha : assign s i j = .ok s1) :
    ∃ o, i < s.objs.length ∧ s.objs[j]? = some (some o) ∧
      s1 = { s with objs := s.objs.set i (some o) } ∧ s1.objs[i]? = some (some o) ∧
      s1.objs[j]? = some (some o) := by
  simp only [assign, Outcome.bind_eq_ok, Outcome.pure_eq, Outcome.ok.injEq, var_ok] at ha
  obtain ⟨o', hi, o, hj, rfl⟩ := ha
  have hl := (List.getElem?_eq_some_iff.1 hi).1
  refine ⟨o, hl, hj, rfl, by simp [hl], ?_⟩
  by_cases h : i = j
  · subst h; simp [hl]
  · simp only [List.getElem?_set_ne h, hj]

theorem assign_observe (I : HeapImpl C O V A Op) {s s1 : ClientState C O} {i j : Nat}
    (ha : assign s i j = .ok s1) :
    I.observe s1 i = I.observe s j ∧ I.observe s1 j = I.observe s j := by
  obtain ⟨o, _, hj, e, h1, h2⟩ := assign_ok ha
  have hh : s1.heap = s.heap := by rw [e]
  unfold observe
  rw [var_ok.2 h1, var_ok.2 h2, var_ok.2 hj]
  simp [hh]

end HeapImpl

open HeapImpl

namespace DiscretePdfObj

theorem assign_shared {s s1 s2 : ClientState (Cell K P) (DiscretePdfObj K)} {i j : Nat}
    {op : DiscretePdf.Op K} {vi vj vj0 : DiscretePdf K} (hij : i ≠ j)
    (ha : HeapImpl.assign s i j = .ok s1)
    (hj0 : DiscretePdfObj.impl.observe s1 j = .ok vj0)
    (hc : DiscretePdfObj.impl.exec s1 (.call i op) = .ok s2)
    (hi : DiscretePdfObj.impl.observe s2 i = .ok vi)
    (hj : DiscretePdfObj.impl.observe s2 j = .ok vj) :
    vj.values = vi.values ∧ vj.cum = vj0.cum := by
  obtain ⟨o, _, _, _, h1, h2⟩ := assign_ok ha
  have hli := (List.getElem?_eq_some_iff.1 h1).1
  simp only [HeapImpl.exec, Outcome.bind_eq_ok, Outcome.pure_eq, Outcome.ok.injEq, var_ok,
    Prod.exists] at hc
  obtain ⟨o', e1, b, h', o'', hcall, rfl⟩ := hc
  rw [h1] at e1
  cases e1
  simp only [HeapImpl.observe, Outcome.bind_eq_ok, var_ok, List.getElem?_set_self hli,
    List.getElem?_set_ne hij, h2, Option.some.injEq, exists_eq_left'] at hi hj hj0
  have hcall' : call op s1.heap o = .ok (b, h', o'') := hcall
  simp only [call, Outcome.bind_eq_ok, Outcome.pure_eq, Outcome.ok.injEq, Prod.mk.injEq,
    Prod.exists] at hcall'
  obtain ⟨d, _, b', d', _, hh, _, _, _, rfl⟩ := hcall'
  have hi' : load h' { o with cum := d'.cum } = .ok vi := hi
  have hj' : load h' o = .ok vj := hj
  have hj0' : load s1.heap o = .ok vj0 := hj0
  simp only [load, Outcome.bind_eq_ok, Outcome.pure_eq, Outcome.ok.injEq] at hi' hj' hj0'
  obtain ⟨v1, e1, rfl⟩ := hi'
  obtain ⟨v2, e2, rfl⟩ := hj'
  obtain ⟨v3, e3, rfl⟩ := hj0'
  rw [e1] at e2
  cases e2
  exact ⟨rfl, rfl⟩

end DiscretePdfObj

namespace DiscreteConditionalPdfObj

theorem assign_shared {s s1 s2 : ClientState (Cell K P) DiscreteConditionalPdfObj}
    {i j : Nat} {op : DiscreteConditionalPdf.Op K} {vi vj : DiscreteConditionalPdf K} (hij : i ≠ j)
    (ha : HeapImpl.assign s i j = .ok s1)
    (hc : DiscreteConditionalPdfObj.impl.exec s1 (.call i op) = .ok s2)
    (hi : DiscreteConditionalPdfObj.impl.observe s2 i = .ok vi)
    (hj : DiscreteConditionalPdfObj.impl.observe s2 j = .ok vj) : vj.table = vi.table := by
  obtain ⟨o, _, _, _, h1, h2⟩ := assign_ok ha
  have hli := (List.getElem?_eq_some_iff.1 h1).1
  simp only [HeapImpl.exec, Outcome.bind_eq_ok, Outcome.pure_eq, Outcome.ok.injEq, var_ok,
    Prod.exists] at hc
  obtain ⟨o', e1, b, h', o'', hcall, rfl⟩ := hc
  rw [h1] at e1
  cases e1
  simp only [HeapImpl.observe, Outcome.bind_eq_ok, var_ok, List.getElem?_set_self hli,
    List.getElem?_set_ne hij, h2, Option.some.injEq, exists_eq_left'] at hi hj
  have hcall' : call op s1.heap o = .ok (b, h', o'') := hcall
  simp only [call, Outcome.bind_eq_ok, Outcome.pure_eq, Outcome.ok.injEq, Prod.mk.injEq,
    Prod.exists] at hcall'
  obtain ⟨d, _, b', d', _, hh, _, _, _, rfl⟩ := hcall'
  have hi' : load h' { o with args := d'.args } = .ok vi := hi
  have hj' : load h' o = .ok vj := hj
  simp only [load, Outcome.bind_eq_ok, Outcome.pure_eq, Outcome.ok.injEq] at hi' hj'
  obtain ⟨v1, e1, t1, f1, rfl⟩ := hi'
  obtain ⟨v2, e2, t2, f2, rfl⟩ := hj'
  rw [f1] at f2
  cases f2
  rfl

end DiscreteConditionalPdfObj

namespace HeapImpl

variable {C O V A Op : Type}

/-- Destroying two variables that hold the same object is undefined if a second destruction on the
heap left by the first is. -/
theorem destroy_twice (I : HeapImpl C O V A Op)
    (hI : ∀ h o, I.destroy h o = .ub ∨ ∃ h', I.destroy h o = .ok h' ∧ I.destroy h' o = .ub)
    {s s1 : ClientState C O} {i j : Nat} (hij : i ≠ j) (ha : assign s i j = .ok s1) :
    I.run s1 [.destroy i, .destroy j] = .ub := by
  obtain ⟨o, _, _, _, h1, h2⟩ := assign_ok ha
  simp only [run, exec, var_ok.2 h1, Outcome.ok_bind]
  rcases hI s1.heap o with h | ⟨h', e, e'⟩
  · simp [h]
  · have h2' : var (s1.objs.set i none) j = .ok o := by
      rw [var_ok, List.getElem?_set_ne hij, h2]
    simp [e, h2', e']

end HeapImpl

namespace Heap

variable {C : Type} {h h' : Heap C} {a b : Nat}

theorem free_ub (hg : h.get a = none) : h.free a = .ub := by simp [free, hg]

theorem free_cases (h : Heap C) (a : Nat) :
    h.free a = .ub ∨ (a < h.size ∧ h.free a = .ok (h.upd a none)) := by
  cases hg : h.get a with
  | none => exact Or.inl (free_ub hg)
  | some c => exact Or.inr ⟨lt_of_get hg, free_ok hg⟩

theorem free_none (hf : h.free a = .ok h') (hb : h.get b = none) : h'.get b = none := by
  rcases free_cases h a with e | ⟨hl, e⟩
  · rw [e] at hf; cases hf
  · rw [e] at hf
    cases hf
    rw [upd_get hl]
    split <;> simp [hb]

theorem freeAll_cases (h : Heap C) (as : List Nat) :
    h.freeAll as = .ub ∨ ∃ h', h.freeAll as = .ok h' ∧ ∀ b, h.get b = none → h'.get b = none := by
  induction as generalizing h with
  | nil => exact Or.inr ⟨h, rfl, fun _ hb => hb⟩
  | cons a as ih =>
    rcases free_cases h a with e | ⟨hl, e⟩
    · left; simp [freeAll, e]
    · rcases ih (h.upd a none) with e2 | ⟨h', e2, hn⟩
      · left; simp [freeAll, e, e2]
      · exact Or.inr ⟨h', by simp [freeAll, e, e2], fun b hb => hn b (free_none e hb)⟩

end Heap

namespace DiscretePdfObj

theorem assign_double_delete {s s1 : ClientState (Cell K P) (DiscretePdfObj K)} {i j : Nat}
    (hij : i ≠ j) (ha : HeapImpl.assign s i j = .ok s1) :
    DiscretePdfObj.impl.run s1 [.destroy i, .destroy j] = .ub := by
  refine HeapImpl.destroy_twice impl ?_ hij ha
  intro h o
  show h.free _ = .ub ∨ ∃ h', h.free _ = .ok h' ∧ h'.free _ = .ub
  rcases Heap.free_cases h o.valuesP with e | ⟨hl, e⟩
  · exact Or.inl e
  · exact Or.inr ⟨_, e, Heap.free_ub (by rw [Heap.upd_get hl]; simp)⟩

end DiscretePdfObj

namespace MixtureObj

theorem members_cases (h : Heap (Cell K P)) (o : MixtureObj K) :
    members h o = .ub ∨ ∃ m, members h o = .ok m := by
  unfold members Heap.readProbs Heap.readPtrs Heap.read
  cases h.get o.weightsP with
  | none => simp
  | some c =>
    cases c <;> simp
    cases h.get o.compsP with
    | none => simp
    | some c => cases c <;> simp

theorem assign_double_delete (dims : P → Nat) {s s1 : ClientState (Cell K P) (MixtureObj K)}
    {i j : Nat} (hij : i ≠ j) (ha : HeapImpl.assign s i j = .ok s1) :
    (MixtureObj.impl dims).run s1 [.destroy i, .destroy j] = .ub := by
  refine HeapImpl.destroy_twice (impl dims) ?_ hij ha
  intro h o
  show destroy h o = .ub ∨ ∃ h', destroy h o = .ok h' ∧ destroy h' o = .ub
  unfold destroy
  rcases members_cases h o with e | ⟨m, e⟩
  · left; simp [e]
  rcases Heap.free_cases h o.weightsP with e1 | ⟨hl1, e1⟩
  · left; simp [e, e1]
  rcases Heap.freeAll_cases (h.upd o.weightsP none) m.comps with e2 | ⟨h2, e2, hn2⟩
  · left; simp [e, e1, e2]
  rcases Heap.free_cases h2 o.compsP with e3 | ⟨hl3, e3⟩
  · left; simp [e, e1, e2, e3]
  · right
    refine ⟨h2.upd o.compsP none, by simp [e, e1, e2, e3], ?_⟩
    have hnone : (h2.upd o.compsP none).get o.weightsP = none :=
      Heap.free_none e3 (hn2 _ (by rw [Heap.upd_get hl1]; simp))
    have : members (h2.upd o.compsP none) o = .ub := by
      simp [members, Heap.readProbs, Heap.read, hnone]
    simp [this]

end MixtureObj

namespace MCPdfObj

theorem exec_others (dflt : T) {s s' : ClientState (Cell K P) (MCPdf K T)} {k : Nat}
    {c : Cmd Nat (MCPdf.Op K T)} (hk : k < s.objs.length) (hc : c.target ≠ some k)
    (hr : (MCPdfObj.impl dflt).exec s c = .ok s') :
    k < s'.objs.length ∧ s'.objs[k]? = s.objs[k]? := by
  cases c with
  | new a =>
    simp only [HeapImpl.exec, Outcome.bind_eq_ok, Outcome.pure_eq, Outcome.ok.injEq,
      Prod.exists] at hr
    obtain ⟨_, _, _, rfl⟩ := hr
    exact ⟨by simp; omega, List.getElem?_append_left hk⟩
  | clone j =>
    simp only [HeapImpl.exec, Outcome.bind_eq_ok, Outcome.pure_eq, Outcome.ok.injEq,
      Prod.exists] at hr
    obtain ⟨_, _, _, _, _, rfl⟩ := hr
    exact ⟨by simp; omega, List.getElem?_append_left hk⟩
  | call j op =>
    simp only [HeapImpl.exec, Outcome.bind_eq_ok, Outcome.pure_eq, Outcome.ok.injEq,
      Prod.exists] at hr
    obtain ⟨_, _, _, _, _, _, rfl⟩ := hr
    simp only [Cmd.target, ne_eq, Option.some.injEq] at hc
    exact ⟨by simpa using hk, List.getElem?_set_ne hc⟩
  | destroy j =>
    simp only [HeapImpl.exec, Outcome.bind_eq_ok, Outcome.pure_eq, Outcome.ok.injEq] at hr
    obtain ⟨_, _, _, _, rfl⟩ := hr
    simp only [Cmd.target, ne_eq, Option.some.injEq] at hc
    exact ⟨by simpa using hk, List.getElem?_set_ne hc⟩

theorem run_others (dflt : T) {s1 s2 : ClientState (Cell K P) (MCPdf K T)} {k : Nat}
    {more : List (Cmd Nat (MCPdf.Op K T))} (hk : k < s1.objs.length)
    (hm : ∀ c ∈ more, c.target ≠ some k) (hr : (MCPdfObj.impl dflt).run s1 more = .ok s2) :
    (MCPdfObj.impl dflt).observe s2 k =
      (MCPdfObj.impl dflt : HeapImpl (Cell K P) _ _ _ _).observe s1 k := by
  have key : s2.objs[k]? = s1.objs[k]? := by
    induction more generalizing s1 with
    | nil => cases hr; rfl
    | cons c cs ih =>
      simp only [HeapImpl.run, Outcome.bind_eq_ok] at hr
      obtain ⟨s', h1, h2⟩ := hr
      obtain ⟨hl, he⟩ := exec_others dflt hk (hm c (by simp)) h1
      rw [ih hl (fun c hc => hm c (by simp [hc])) h2, he]
  unfold HeapImpl.observe HeapImpl.var
  rw [key]
  rfl

theorem assign_run_others (dflt : T) {s s1 s2 : ClientState (Cell K P) (MCPdf K T)} {i j k : Nat}
    {more : List (Cmd Nat (MCPdf.Op K T))} (ha : HeapImpl.assign s i j = .ok s1)
    (hk : k < s.objs.length) (hm : ∀ c ∈ more, c.target ≠ some k)
    (hr : (MCPdfObj.impl dflt).run s1 more = .ok s2) :
    (MCPdfObj.impl dflt).observe s2 k =
      (MCPdfObj.impl dflt : HeapImpl (Cell K P) _ _ _ _).observe s (if k = i then j else k) := by
  obtain ⟨o, _, _, e, _, _⟩ := assign_ok ha
  have hk1 : k < s1.objs.length := by rw [e]; simpa using hk
  rw [run_others dflt hk1 hm hr]
  split
  · next hki => rw [hki]; exact (assign_observe _ ha).1
  · next hki =>
    have key : s1.objs[k]? = s.objs[k]? := by
      rw [e]; exact List.getElem?_set_ne (fun h => hki h.symm)
    unfold HeapImpl.observe HeapImpl.var
    rw [key]
    rfl

end MCPdfObj

end BFL
