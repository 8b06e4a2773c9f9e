import Verif.Spec.ObjectHeap

/-! # Framing on the heap, and refinement of values by objects with pointers -/

set_option linter.unusedSectionVars false

namespace BFL

open Spec

namespace Spec.SameOutcome

variable {α β γ δ : Type} {R : α → β → Prop} {Q : γ → δ → Prop}

theorem mono {R' : α → β → Prop} (h : ∀ a b, R a b → R' a b) {x : Outcome α} {y : Outcome β}
    (hxy : SameOutcome R x y) : SameOutcome R' x y := by
  cases x <;> cases y <;> simp_all [SameOutcome]

theorem bind {x : Outcome α} {y : Outcome β} {f : α → Outcome γ} {g : β → Outcome δ}
    (hxy : SameOutcome R x y) (hfg : ∀ a b, R a b → SameOutcome Q (f a) (g b)) :
    SameOutcome Q (x >>= f) (y >>= g) := by
  cases x <;> cases y <;> simp_all [SameOutcome]

theorem ok {a : α} {b : β} (h : R a b) : SameOutcome R (.ok a) (.ok b) := h

theorem refl_eq {x : Outcome α} : SameOutcome (· = ·) x x := by
  cases x <;> simp [SameOutcome]

/-- The first computation does the second one and then something that succeeds. -/
theorem of_bind {x : Outcome β} {f : β → Outcome α} (hf : ∀ b, x = .ok b → SameOutcome R (f b) (.ok b)) :
    SameOutcome R (x >>= f) x := by
  cases x with
  | ok b => exact hf b rfl
  | abort => trivial
  | ub => trivial

theorem ok_left {a : α} {y : Outcome β} (h : SameOutcome R (.ok a) y) :
    ∃ b, y = .ok b ∧ R a b := by
  cases y <;> simp_all [SameOutcome]

theorem ok_right {x : Outcome α} {b : β} (h : SameOutcome R x (.ok b)) :
    ∃ a, x = .ok a ∧ R a b := by
  cases x <;> simp_all [SameOutcome]

end Spec.SameOutcome

namespace Heap

variable {C : Type} {h h' : Heap C} {a b : Addr} {c d : C}

theorem get_eq_some : h.get a = some c ↔ h.cells[a]? = some (some c) := by
  unfold get
  cases hh : h.cells[a]? with
  | none => simp
  | some x => cases x <;> simp

theorem lt_of_get (hg : h.get a = some c) : a < h.size := by
  rw [get_eq_some] at hg
  exact (List.getElem?_eq_some_iff.1 hg).1

theorem read_ok (hg : h.get a = some c) : h.read a = .ok c := by simp [read, hg]

theorem read_eq_ok : h.read a = .ok c ↔ h.get a = some c := by
  unfold read; cases h.get a <;> simp

theorem read_congr (hg : h'.get a = h.get a) : h'.read a = h.read a := by simp [read, hg]

theorem alloc_size : (h.alloc c).1.size = h.size + 1 := by simp [alloc, size]

theorem alloc_get : (h.alloc c).1.get a = if a = h.size then some c else h.get a := by
  unfold alloc get size
  rcases lt_trichotomy a h.cells.length with h1 | h1 | h1
  · rw [List.getElem?_append_left h1, if_neg (by omega)]
  · subst h1; simp
  · rw [if_neg (by omega), List.getElem?_eq_none (by simp; omega), List.getElem?_eq_none (by omega)]

theorem alloc_get_lt (hl : a < h.size) : (h.alloc c).1.get a = h.get a := by
  rw [alloc_get, if_neg (by omega)]

theorem alloc_get_new : (h.alloc c).1.get (h.alloc c).2 = some c := by
  rw [alloc_get]; simp [alloc]

/-- Heap after overwriting one cell. -/
def upd (h : Heap C) (a : Addr) (x : Option C) : Heap C := ⟨h.cells.set a x⟩

theorem upd_size {x : Option C} : (h.upd a x).size = h.size := by simp [upd, size]

theorem upd_get {x : Option C} (hl : a < h.size) :
    (h.upd a x).get b = if b = a then x else h.get b := by
  unfold upd get
  by_cases hb : b = a
  · subst hb; rw [List.getElem?_set_self hl]; simp
  · rw [List.getElem?_set_ne (Ne.symm hb), if_neg hb]

theorem upd_get_ne {x : Option C} (hb : b ≠ a) : (h.upd a x).get b = h.get b := by
  unfold upd get
  rw [List.getElem?_set_ne (Ne.symm hb)]

theorem write_ok (hg : h.get a = some c) : h.write a d = .ok (h.upd a (some d)) := by
  simp [write, hg, upd]

theorem free_ok (hg : h.get a = some c) : h.free a = .ok (h.upd a none) := by
  simp [free, hg, upd]

theorem freeAll_ok {as : List Addr} (hn : as.Nodup) (hl : ∀ a ∈ as, ∃ c, h.get a = some c) :
    ∃ h', h.freeAll as = .ok h' ∧ h'.size = h.size ∧ ∀ b, b ∉ as → h'.get b = h.get b := by
  induction as generalizing h with
  | nil => exact ⟨h, rfl, rfl, fun _ _ => rfl⟩
  | cons a as ih =>
    obtain ⟨c, hc⟩ := hl a (by simp)
    rw [List.nodup_cons] at hn
    obtain ⟨h', e, hs, hg⟩ := ih (h := h.upd a none) hn.2 (by
      intro b hb
      obtain ⟨c, hc⟩ := hl b (by simp [hb])
      exact ⟨c, by rw [upd_get_ne (by rintro rfl; exact hn.1 hb), hc]⟩)
    refine ⟨h', by simp [freeAll, free_ok hc, e], by rw [hs, upd_size], ?_⟩
    intro b hb
    simp only [List.mem_cons, not_or] at hb
    rw [hg b hb.2, upd_get_ne hb.1]

theorem allocAll_spec (h : Heap C) (cs : List C) :
    (h.allocAll cs).1.size = h.size + cs.length ∧
      (h.allocAll cs).2 = List.range' h.size cs.length ∧
      (∀ a, a < h.size → (h.allocAll cs).1.get a = h.get a) ∧
      List.Forall₂ (fun a c => (h.allocAll cs).1.get a = some c) (h.allocAll cs).2 cs := by
  induction cs generalizing h with
  | nil => simp [allocAll]
  | cons c cs ih =>
    obtain ⟨i1, i2, i3, i4⟩ := ih (h.alloc c).1
    have hs : (h.alloc c).1.size = h.size + 1 := alloc_size
    refine ⟨?_, ?_, ?_, ?_⟩
    · show ((h.alloc c).1.allocAll cs).1.size = _
      rw [i1, hs]; simp; omega
    · show (h.alloc c).2 :: ((h.alloc c).1.allocAll cs).2 = _
      rw [i2, hs]; simp [alloc, List.range'_succ]
    · intro a ha
      show ((h.alloc c).1.allocAll cs).1.get a = _
      rw [i3 a (by omega), alloc_get_lt ha]
    · show List.Forall₂ _ ((h.alloc c).2 :: ((h.alloc c).1.allocAll cs).2) (c :: cs)
      refine List.Forall₂.cons ?_ i4
      show ((h.alloc c).1.allocAll cs).1.get _ = _
      rw [i3 _ (by rw [hs]; simp [alloc]), alloc_get_new]

end Heap

/-- Going from `h` to `h'` touched only the cells in `fp` and new cells, and the object now uses
the cells `fp'`. -/
structure Ext {C : Type} (h h' : Heap C) (fp fp' : List Addr) : Prop where
  size : h.size ≤ h'.size
  same : ∀ a, a < h.size → a ∉ fp → h'.get a = h.get a
  foot : ∀ a ∈ fp', a ∈ fp ∨ h.size ≤ a

/-- A class on the heap with the values it represents and the cells each object uses. -/
structure Refines {C O V A Op : Type} (I : HeapImpl C O V A Op) (S : ValueClass V A Op) where
  Rep : Heap C → O → List Addr → V → Prop
  live : ∀ {h o fp v}, Rep h o fp v → ∀ a ∈ fp, a < h.size
  frame : ∀ {h h' o fp v}, Rep h o fp v → (∀ a ∈ fp, h'.get a = h.get a) → h.size ≤ h'.size →
    Rep h' o fp v
  load : ∀ {h o fp v}, Rep h o fp v → I.load h o = .ok v
  make : ∀ h a, SameOutcome (fun (r : Heap C × O) v =>
    ∃ fp, Rep r.1 r.2 fp v ∧ Ext h r.1 [] fp) (I.make a h) (S.make a)
  clone : ∀ {h o fp v}, Rep h o fp v → SameOutcome (fun (r : Heap C × O) c =>
    ∃ fp', Rep r.1 r.2 fp' c ∧ Ext h r.1 [] fp') (I.clone h o) (S.copy v)
  call : ∀ {h o fp v} op, Rep h o fp v → SameOutcome
    (fun (r : Bool × Heap C × O) (q : Bool × V) =>
      r.1 = q.1 ∧ ∃ fp', Rep r.2.1 r.2.2 fp' q.2 ∧ Ext h r.2.1 fp fp') (I.call op h o) (S.step op v)
  destroy : ∀ {h o fp v}, Rep h o fp v → ∃ h', I.destroy h o = .ok h' ∧ Ext h h' fp []

namespace Refines

variable {C O V A Op : Type} {I : HeapImpl C O V A Op} {S : ValueClass V A Op}

/-- Every variable holds an object that represents the value, and no two objects use the same
cell. -/
structure Inv (F : Refines I S) (s : ClientState C O) (t : ValueState V) (fp : Nat → List Addr) :
    Prop where
  len : s.objs.length = t.vals.length
  rets : s.rets = t.rets
  rep : ∀ (i : Nat) o, s.objs[i]? = some (some o) → ∃ v, t.vals[i]? = some (some v) ∧
    F.Rep s.heap o (fp i) v
  dead : ∀ (i : Nat), s.objs[i]? = some none → t.vals[i]? = some none
  sep : ∀ (i j : Nat) o o', i ≠ j → s.objs[i]? = some (some o) → s.objs[j]? = some (some o') →
    ∀ a ∈ fp i, a ∉ fp j

variable {F : Refines I S} {s : ClientState C O} {t : ValueState V} {fp : Nat → List Addr}

theorem Inv.var (h : Inv F s t fp) (i : Nat) :
    SameOutcome (fun o v => s.objs[i]? = some (some o) ∧ t.vals[i]? = some (some v) ∧
      F.Rep s.heap o (fp i) v) (HeapImpl.var s.objs i) (ValueClass.value t i) := by
  unfold HeapImpl.var ValueClass.value
  rcases ho : s.objs[i]? with _ | o
  · rw [List.getElem?_eq_none_iff, h.len, ← List.getElem?_eq_none_iff] at ho
    rw [ho]; exact trivial
  · cases o with
    | none => rw [h.dead i ho]; exact trivial
    | some o =>
      obtain ⟨v, hv, hr⟩ := h.rep i o ho
      rw [hv]
      exact ⟨rfl, rfl, hr⟩

/-- A new object is added. -/
theorem Inv.push (h : Inv F s t fp) {h' : Heap C} {o : O} {v : V} {fn : List Addr}
    (hr : F.Rep h' o fn v) (he : Ext s.heap h' [] fn) :
    ∃ fp', Inv F { s with heap := h', objs := s.objs ++ [some o] }
      { t with vals := t.vals ++ [some v] } fp' := by
  have keep : ∀ i o, s.objs[i]? = some (some o) → ∃ v, t.vals[i]? = some (some v) ∧
      F.Rep h' o (fp i) v := by
    intro i o' ho
    obtain ⟨v', hv, hrep⟩ := h.rep i o' ho
    exact ⟨v', hv, F.frame hrep (fun a ha => he.same a (F.live hrep a ha) (by simp)) he.size⟩
  have hlt : ∀ i (x : Option O), i < s.objs.length →
      ((s.objs ++ [some o])[i]? = some x ↔ s.objs[i]? = some x) := fun i x hi => by
    rw [List.getElem?_append_left hi]
  have hcase : ∀ i (x : Option O), (s.objs ++ [some o])[i]? = some x →
      (i < s.objs.length ∧ s.objs[i]? = some x) ∨ (i = s.objs.length ∧ x = some o) := by
    intro i x hx
    have hi := (List.getElem?_eq_some_iff.1 hx).1
    simp only [List.length_append, List.length_singleton] at hi
    rcases Nat.lt_or_eq_of_le (Nat.lt_succ_iff.1 hi) with h1 | h1
    · exact Or.inl ⟨h1, (hlt i x h1).1 hx⟩
    · subst h1; simp at hx; exact Or.inr ⟨rfl, hx.symm⟩
  refine ⟨fun i => if i < s.objs.length then fp i else fn, ?_, ?_, ?_, ?_, ?_⟩
  · simp [h.len]
  · exact h.rets
  · intro i x hx
    rcases hcase i _ hx with ⟨hi, hx⟩ | ⟨hi, hx⟩
    · obtain ⟨v', hv, hrep⟩ := keep i x hx
      refine ⟨v', ?_, by simpa [hi] using hrep⟩
      show (t.vals ++ [some v])[i]? = _
      rw [List.getElem?_append_left (h.len ▸ hi), hv]
    · cases hx
      refine ⟨v, ?_, by simpa [hi] using hr⟩
      show (t.vals ++ [some v])[i]? = _
      rw [hi, h.len]; simp
  · intro i hx
    rcases hcase i _ hx with ⟨hi, hx⟩ | ⟨hi, hx⟩
    · show (t.vals ++ [some v])[i]? = _
      rw [List.getElem?_append_left (h.len ▸ hi)]
      exact h.dead i hx
    · cases hx
  · intro i j x y hij hx hy a ha hb
    rcases hcase i _ hx with ⟨hi, hx⟩ | ⟨hi, hx⟩ <;> rcases hcase j _ hy with ⟨hj, hy⟩ | ⟨hj, hy⟩
    · simp only [hi, hj, if_true] at ha hb
      exact h.sep i j x y hij hx hy a ha hb
    · simp only [hi, hj, lt_irrefl, if_true, if_false] at ha hb
      obtain ⟨v', _, hrep⟩ := h.rep i x hx
      have := F.live hrep a ha
      rcases he.foot a hb with h1 | h1
      · cases h1
      · omega
    · simp only [hi, hj, lt_irrefl, if_true, if_false] at ha hb
      obtain ⟨v', _, hrep⟩ := h.rep j y hy
      have := F.live hrep a hb
      rcases he.foot a ha with h1 | h1
      · cases h1
      · omega
    · omega

/-- Object `i` is changed (`some`) or destroyed (`none`). -/
theorem Inv.set (h : Inv F s t fp) {i : Nat} {o : O} (ho : s.objs[i]? = some (some o))
    {h' : Heap C} {fn : List Addr} {x : Option O} {y : Option V} (rets : List Bool)
    (hx : ∀ o', x = some o' → ∃ v', y = some v' ∧ F.Rep h' o' fn v') (hxn : x = none → y = none)
    (he : Ext s.heap h' (fp i) fn) :
    ∃ fp', Inv F { heap := h', objs := s.objs.set i x, rets := rets }
      { vals := t.vals.set i y, rets := rets } fp' := by
  have hi := (List.getElem?_eq_some_iff.1 ho).1
  have hne : ∀ j (z : Option O), (s.objs.set i x)[j]? = some z → j ≠ i →
      s.objs[j]? = some z := by
    intro j z hz hj
    rwa [List.getElem?_set_ne (Ne.symm hj)] at hz
  have heq : ∀ (z : Option O), (s.objs.set i x)[i]? = some z → z = x := by
    intro z hz
    rw [List.getElem?_set_self hi] at hz
    exact (Option.some.inj hz).symm
  refine ⟨fun j => if j = i then fn else fp j, ?_, rfl, ?_, ?_, ?_⟩
  · simp [h.len]
  · intro j z hz
    by_cases hj : j = i
    · subst hj
      obtain ⟨v', hv, hrep⟩ := hx z (heq _ hz).symm
      refine ⟨v', ?_, by simpa using hrep⟩
      show (t.vals.set j y)[j]? = _
      rw [List.getElem?_set_self (h.len ▸ hi), hv]
    · obtain ⟨v', hv, hrep⟩ := h.rep j z (hne j _ hz hj)
      refine ⟨v', ?_, ?_⟩
      · show (t.vals.set i y)[j]? = _
        rw [List.getElem?_set_ne (Ne.symm hj), hv]
      · simp only [hj, if_false]
        refine F.frame hrep (fun a ha => he.same a (F.live hrep a ha) ?_) he.size
        exact h.sep j i z o hj (hne j _ hz hj) ho a ha
  · intro j hz
    by_cases hj : j = i
    · subst hj
      show (t.vals.set j y)[j]? = _
      rw [List.getElem?_set_self (h.len ▸ hi), hxn (heq _ hz).symm]
    · show (t.vals.set i y)[j]? = _
      rw [List.getElem?_set_ne (Ne.symm hj)]
      exact h.dead j (hne j _ hz hj)
  · intro j k z w hjk hz hw a ha hb
    by_cases hj : j = i <;> by_cases hk : k = i
    · omega
    · subst hj
      simp only [hk, if_true, if_false] at ha hb
      have hw' := hne k _ hw hk
      obtain ⟨v', _, hrep⟩ := h.rep k w hw'
      rcases he.foot a ha with h1 | h1
      · exact h.sep j k o w hjk ho hw' a h1 hb
      · exact absurd (F.live hrep a hb) (by omega)
    · subst hk
      simp only [hj, if_true, if_false] at ha hb
      have hz' := hne j _ hz hj
      obtain ⟨v', _, hrep⟩ := h.rep j z hz'
      rcases he.foot a hb with h1 | h1
      · exact h.sep j k z o hjk hz' ho a ha h1
      · exact absurd (F.live hrep a ha) (by omega)
    · simp only [hj, hk, if_false] at ha hb
      exact h.sep j k z w hjk (hne j _ hz hj) (hne k _ hw hk) a ha hb

theorem exec_same (h : Inv F s t fp) (c : Cmd A Op) :
    SameOutcome (fun s' t' => ∃ fp', Inv F s' t' fp') (I.exec s c) (S.exec t c) := by
  cases c with
  | new a =>
    refine SameOutcome.bind (F.make s.heap a) ?_
    rintro ⟨h', o⟩ v ⟨fn, hr, he⟩
    exact h.push hr he
  | clone i =>
    refine SameOutcome.bind (h.var i) ?_
    rintro o v ⟨ho, hv, hrep⟩
    refine SameOutcome.bind (F.clone hrep) ?_
    rintro ⟨h', c⟩ v' ⟨fn, hr, he⟩
    exact h.push hr he
  | call i op =>
    refine SameOutcome.bind (h.var i) ?_
    rintro o v ⟨ho, hv, hrep⟩
    refine SameOutcome.bind (F.call op hrep) ?_
    rintro ⟨b, h', o'⟩ ⟨b', v'⟩ ⟨rfl, fn, hr, he⟩
    have := h.set ho (x := some o') (y := some v') (s.rets ++ [b])
      (by rintro o2 h2; cases h2; exact ⟨v', rfl, hr⟩) (by rintro ⟨⟩) he
    show SameOutcome _ (Outcome.ok _) (Outcome.ok _)
    simp only [SameOutcome]
    rw [← h.rets]
    exact this
  | destroy i =>
    refine SameOutcome.bind (h.var i) ?_
    rintro o v ⟨ho, hv, hrep⟩
    obtain ⟨h', e, he⟩ := F.destroy hrep
    have := h.set ho (x := none) (y := none) s.rets (by rintro o2 ⟨⟩) (fun _ => rfl) he
    simp only [e, Outcome.ok_bind, Outcome.pure_eq, SameOutcome]
    have hr := h.rets
    cases t
    simp only at hr
    subst hr
    exact this

theorem run_same (h : Inv F s t fp) (prog : List (Cmd A Op)) :
    SameOutcome (fun s' t' => ∃ fp', Inv F s' t' fp') (I.run s prog) (S.run t prog) := by
  induction prog generalizing s t fp with
  | nil => exact ⟨fp, h⟩
  | cons c cs ih =>
    refine SameOutcome.bind (exec_same h c) ?_
    rintro s' t' ⟨fp', h'⟩
    exact ih h'

theorem Inv.observe (h : Inv F s t fp) (i : Nat) : I.observe s i = ValueClass.value t i := by
  have := h.var i
  unfold HeapImpl.observe
  cases hv : HeapImpl.var s.objs i with
  | ok o =>
    rw [hv] at this
    obtain ⟨v, e, _, _, hrep⟩ := this.ok_left
    rw [e]
    exact F.load hrep
  | abort => rw [hv] at this; revert this; cases ValueClass.value t i <;> simp [SameOutcome]
  | ub => rw [hv] at this; revert this; cases ValueClass.value t i <;> simp [SameOutcome]

theorem inv_start (F : Refines I S) :
    Inv F (HeapImpl.start : ClientState C O) { vals := [], rets := [] } (fun _ => []) where
  len := rfl
  rets := rfl
  rep := by intro i o ho; simp [HeapImpl.start] at ho
  dead := by intro i ho; simp [HeapImpl.start] at ho
  sep := by intro i j o o' _ ho; simp [HeapImpl.start] at ho

theorem actsLikeValues (F : Refines I S) : ActsLikeValues I S := by
  intro prog
  refine (run_same (inv_start F) prog).mono ?_
  rintro s t ⟨fp, h⟩
  exact ⟨h.rets, h.observe⟩

theorem value_exec {t t' : ValueState V} {c : Cmd A Op} {i : Nat} (hi : i < t.vals.length)
    (hc : c.target ≠ some i) (h : S.exec t c = .ok t') :
    i < t'.vals.length ∧ t'.vals[i]? = t.vals[i]? := by
  cases c with
  | new a =>
    simp only [ValueClass.exec, Outcome.bind_eq_ok, Outcome.pure_eq, Outcome.ok.injEq] at h
    obtain ⟨v, _, rfl⟩ := h
    exact ⟨by simp; omega, List.getElem?_append_left hi⟩
  | clone j =>
    simp only [ValueClass.exec, Outcome.bind_eq_ok, Outcome.pure_eq, Outcome.ok.injEq] at h
    obtain ⟨v, _, c, _, rfl⟩ := h
    exact ⟨by simp; omega, List.getElem?_append_left hi⟩
  | call j op =>
    simp only [ValueClass.exec, Outcome.bind_eq_ok, Outcome.pure_eq, Outcome.ok.injEq,
      Prod.exists] at h
    obtain ⟨v, _, b, v', _, rfl⟩ := h
    simp only [Cmd.target, ne_eq, Option.some.injEq] at hc
    exact ⟨by simpa using hi, List.getElem?_set_ne hc⟩
  | destroy j =>
    simp only [ValueClass.exec, Outcome.bind_eq_ok, Outcome.pure_eq, Outcome.ok.injEq] at h
    obtain ⟨v, _, rfl⟩ := h
    simp only [Cmd.target, ne_eq, Option.some.injEq] at hc
    exact ⟨by simpa using hi, List.getElem?_set_ne hc⟩

theorem value_run {cs : List (Cmd A Op)} {t t' : ValueState V} {i : Nat} (hi : i < t.vals.length)
    (hc : ∀ c ∈ cs, c.target ≠ some i) (h : S.run t cs = .ok t') :
    t'.vals[i]? = t.vals[i]? := by
  induction cs generalizing t with
  | nil => cases h; rfl
  | cons c cs ih =>
    simp only [ValueClass.run, Outcome.bind_eq_ok] at h
    obtain ⟨t1, h1, h2⟩ := h
    obtain ⟨hl, he⟩ := value_exec hi (hc c (by simp)) h1
    rw [ih hl (fun c hc' => hc c (by simp [hc'])) h2, he]

theorem leavesOthersAlone (F : Refines I S) : LeavesOthersAlone I := by
  intro prog more s s' i hs hi hc hs'
  have h1 := run_same (inv_start F) prog
  rw [hs] at h1
  obtain ⟨t, _, fp, hinv⟩ := h1.ok_left
  have h2 := run_same hinv more
  rw [hs'] at h2
  obtain ⟨t', ht', fp', hinv'⟩ := h2.ok_left
  rw [hinv.observe, hinv'.observe]
  unfold ValueClass.value
  rw [value_run (hinv.len ▸ hi) hc ht']

end Refines

end BFL
