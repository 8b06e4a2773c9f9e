import Verif.Spec.FilterCopy
import Verif.Lemmas.FilterReset

/-! # Client programs with filters -/

set_option linter.unusedSectionVars false

namespace BFL

open Spec

namespace FilterVar

variable {P F C : Type} {X : FilterClass P F C}

/-- The variable holds a filter with the value `f` whose posterior is the cell `a`. -/
def Holds (X : FilterClass P F C) (h : Heap (PdfCell P)) (v : FilterVar F) (fp : List Addr) (f : F) : Prop :=
  ∃ a, v.post = some a ∧ fp = [a] ∧ h.get a = some ⟨X.post f, true⟩ ∧ v.own = f

theorem toObj_of {v : FilterVar F} {a : Addr} (h : v.post = some a) :
    v.toObj = .ok ⟨v.prior.getD a, a, v.own⟩ := by
  simp [toObj, h, readMember]

theorem construct_ok {h : Heap (PdfCell P)} {a : Addr} {cell : PdfCell P} (hc : h.get a = some cell) :
    X.construct h a = (X.make cell.val >>= fun f =>
      .ok ((h.alloc ⟨X.post f, true⟩).1, ⟨a, (h.alloc ⟨X.post f, true⟩).2, f⟩)) := by
  simp only [FilterClass.construct, Heap.read_ok hc, Outcome.ok_bind, Outcome.pure_eq]

theorem alloc_holds (h : Heap (PdfCell P)) (a : Addr) (f : F) :
    Holds X (h.alloc ⟨X.post f, true⟩).1 (ofObj ⟨a, (h.alloc ⟨X.post f, true⟩).2, f⟩) [h.size] f :=
  ⟨h.size, rfl, rfl, Heap.alloc_get_new, rfl⟩

theorem alloc_ext (h : Heap (PdfCell P)) (c : PdfCell P) : Ext h (h.alloc c).1 [] [h.size] where
  size := by rw [Heap.alloc_size]; omega
  same a ha _ := Heap.alloc_get_lt ha
  foot a ha := by simp at ha; subst ha; exact Or.inr le_rfl

theorem update_holds (hX : X.Lawful) {h : Heap (PdfCell P)} {v : FilterVar F} {a : Addr} {f : F} (c : C)
    (hp : v.post = some a) (hg : h.get a = some ⟨X.post f, true⟩) (ho : v.own = f) :
    X.updateVar c h v = (X.step f c >>= fun r =>
      .ok (r.1, h.upd a (some ⟨X.post r.2, true⟩), { v with own := r.2 })) := by
  subst ho
  simp only [FilterClass.updateVar, toObj_of hp, Outcome.ok_bind, FilterClass.update,
    Heap.read_ok hg, hX.set, Outcome.pure_eq, Heap.write_ok hg]
  cases X.step v.own c <;> rfl

/-- Programs with construction, forks, updates and destruction act on values. -/
def forkRefines (hX : X.Lawful) : Refines X.forkImpl (filterForks X) where
  Rep := Holds X
  live := by
    rintro h o fp v ⟨a, _, rfl, hg, _⟩ b hb
    simp at hb; subst hb
    exact Heap.lt_of_get hg
  frame := by
    rintro h h' o fp v ⟨a, hp, rfl, hg, ho⟩ hs _
    exact ⟨a, hp, rfl, (hs a (by simp)).trans hg, ho⟩
  load := by
    rintro h o fp v ⟨a, hp, rfl, hg, rfl⟩
    show X.loadVar h o = _
    simp only [FilterClass.loadVar, toObj_of hp, Outcome.ok_bind, FilterClass.load, Heap.read_ok hg, hX.set]
  make := by
    intro h p
    show SameOutcome _ (X.newVar p h) (X.make p)
    simp only [FilterClass.newVar, construct_ok (h := (h.alloc ⟨p, true⟩).1) Heap.alloc_get_new]
    cases X.make p with
    | abort => trivial
    | ub => trivial
    | ok f =>
      refine ⟨[(h.alloc ⟨p, true⟩).1.size], alloc_holds _ _ f, ?_⟩
      have e := alloc_ext (h.alloc ⟨p, true⟩).1 (⟨X.post f, true⟩ : PdfCell P)
      have e0 := alloc_ext h (⟨p, true⟩ : PdfCell P)
      refine ⟨e0.size.trans e.size, ?_, ?_⟩
      · intro a ha hn
        exact (e.same a (lt_of_lt_of_le ha e0.size) hn).trans (e0.same a ha hn)
      · intro a ha
        rcases e.foot a ha with h' | h'
        · exact Or.inl h'
        · exact Or.inr (e0.size.trans h')
  clone := by
    rintro h o fp f ⟨a, hp, rfl, hg, rfl⟩
    show SameOutcome _ (X.fork h o) (X.make (X.post o.own))
    simp only [FilterClass.fork, toObj_of hp, Outcome.ok_bind, construct_ok hg]
    cases X.make (X.post o.own) with
    | abort => trivial
    | ub => trivial
    | ok g => exact ⟨[h.size], alloc_holds _ _ g, alloc_ext _ _⟩
  call := by
    rintro h o fp f c ⟨a, hp, rfl, hg, ho⟩
    show SameOutcome _ (X.updateVar c h o) (X.step f c)
    rw [update_holds hX c hp hg ho]
    cases X.step f c with
    | abort => trivial
    | ub => trivial
    | ok r =>
      refine ⟨rfl, [a], ⟨a, hp, rfl, ?_, rfl⟩, ?_, ?_, ?_⟩
      · show (h.upd a _).get a = _
        rw [Heap.upd_get (Heap.lt_of_get hg), if_pos rfl]
      · show _ ≤ (h.upd a _).size
        rw [Heap.upd_size]
      · intro b _ hb
        exact Heap.upd_get_ne (by simpa using hb)
      · intro b hb
        exact Or.inl hb
  destroy := by
    rintro h o fp f ⟨a, hp, rfl, hg, ho⟩
    refine ⟨h.upd a none, ?_, ?_, ?_, ?_⟩
    · show FilterClass.destroyVar h o = _
      simp only [FilterClass.destroyVar, toObj_of hp, Outcome.ok_bind, FilterObj.destroy, deletePdf,
        Heap.read_ok hg, if_true, Heap.free_ok hg]
    · rw [Heap.upd_size]
    · intro b _ hb
      exact Heap.upd_get_ne (by simpa using hb)
    · intro b hb
      simp at hb

end FilterVar

theorem rtsClass_lawful {K : Type} [Field K] [LinearOrder K] {n : Nat} {U : Type} (be : Backend) :
    (rtsClass be : FilterClass _ _ (RTS.Call K n U)).Lawful where
  get h := by cases h; rfl
  set _ := rfl

/-! ## Filters started from a posterior -/

section Alike

variable {P F C : Type} {X : FilterClass P F C}

theorem value_inv {I : F → Prop} (hmake : ∀ p f, X.make p = .ok f → I f)
    (hstep : ∀ f c b f', I f → X.step f c = .ok (b, f') → I f') {prog : List (Cmd P C)}
    {t t' : ValueState F} (ht : ∀ (i : Nat) f, t.vals[i]? = some (some f) → I f)
    (hr : (filterForks X).run t prog = .ok t') : ∀ (i : Nat) f, t'.vals[i]? = some (some f) → I f := by
  induction prog generalizing t with
  | nil => cases hr; exact ht
  | cons c cs ih =>
    simp only [ValueClass.run, Outcome.bind_eq_ok] at hr
    obtain ⟨t1, h1, h2⟩ := hr
    refine ih ?_ h2
    have push : ∀ (g : F), I g → ∀ (i : Nat) f, (t.vals ++ [some g])[i]? = some (some f) → I f := by
      intro g hg i f hi
      rw [List.getElem?_append] at hi
      split at hi
      · exact ht i f hi
      · rw [List.getElem?_singleton] at hi
        split at hi
        · cases hi; exact hg
        · cases hi
    have old : ∀ i f, ValueClass.value t i = .ok f → I f := by
      intro i f hv
      unfold ValueClass.value at hv
      split at hv
      · cases hv; exact ht i _ (by assumption)
      · cases hv
    cases c with
    | new p =>
      simp only [ValueClass.exec, Outcome.bind_eq_ok, Outcome.pure_eq, Outcome.ok.injEq] at h1
      obtain ⟨g, hg, rfl⟩ := h1
      exact push g (hmake p g hg)
    | clone i =>
      simp only [ValueClass.exec, Outcome.bind_eq_ok, Outcome.pure_eq, Outcome.ok.injEq] at h1
      obtain ⟨_, _, g, hg, rfl⟩ := h1
      exact push g (hmake _ g hg)
    | call i c =>
      simp only [ValueClass.exec, Outcome.bind_eq_ok, Outcome.pure_eq, Outcome.ok.injEq, Prod.exists] at h1
      obtain ⟨f0, hv, b, f1, hs, rfl⟩ := h1
      intro j f hj
      simp only [List.getElem?_set] at hj
      split at hj
      · split at hj
        · cases hj; exact hstep _ _ _ _ (old i f0 hv) hs
        · cases hj
      · exact ht j f hj
    | destroy i =>
      simp only [ValueClass.exec, Outcome.bind_eq_ok, Outcome.pure_eq, Outcome.ok.injEq] at h1
      obtain ⟨_, _, rfl⟩ := h1
      intro j f hj
      simp only [List.getElem?_set] at hj
      split at hj
      · split at hj <;> cases hj
      · exact ht j f hj

theorem value_sim {Rel : F → F → Prop}
    (hstep : ∀ f g c, Rel f g →
      SameOutcome (fun x y => x.1 = y.1 ∧ Rel x.2 y.2) (X.step f c) (X.step g c))
    (cs : List C) {t u : ValueState F} {i j : Nat} {f g : F} (hf : t.vals[i]? = some (some f))
    (hg : u.vals[j]? = some (some g)) (hR : Rel f g) (hrets : t.rets = u.rets) :
    SameOutcome (fun t' u' => t'.rets = u'.rets ∧ ∃ f' g', t'.vals[i]? = some (some f') ∧
        u'.vals[j]? = some (some g') ∧ Rel f' g')
      ((filterForks X).run t (cs.map (.call i))) ((filterForks X).run u (cs.map (.call j))) := by
  induction cs generalizing t u f g with
  | nil => exact ⟨hrets, f, g, hf, hg, hR⟩
  | cons c cs ih =>
    simp only [List.map_cons, ValueClass.run, ValueClass.exec, ValueClass.value, hf, hg, Outcome.ok_bind]
    have hs := hstep f g c hR
    show SameOutcome _ ((X.step f c >>= _) >>= _) ((X.step g c >>= _) >>= _)
    cases e1 : X.step f c with
    | abort => rw [e1] at hs; cases e2 : X.step g c <;> rw [e2] at hs <;> trivial
    | ub => rw [e1] at hs; cases e2 : X.step g c <;> rw [e2] at hs <;> trivial
    | ok x =>
      rw [e1] at hs
      obtain ⟨y, e2, h1, h2⟩ := hs.ok_left
      rw [e2]
      simp only [Outcome.ok_bind, Outcome.pure_eq]
      have hi : i < t.vals.length := (List.getElem?_eq_some_iff.1 hf).1
      have hj : j < u.vals.length := (List.getElem?_eq_some_iff.1 hg).1
      refine ih (f := x.2) (g := y.2) ?_ ?_ h2 ?_
      · show (t.vals.set i _)[i]? = _
        rw [List.getElem?_set_self hi]
      · show (u.vals.set j _)[j]? = _
        rw [List.getElem?_set_self hj]
      · show t.rets ++ [x.1] = u.rets ++ [y.1]
        rw [hrets, h1]

/-- A filter whose updates do not see the difference between it and a filter newly made from its
posterior. -/
theorem continuesAlike (hX : X.Lawful) {I : F → Prop} (hmake : ∀ p f, X.make p = .ok f → I f)
    (hinv : ∀ f c b f', I f → X.step f c = .ok (b, f') → I f') {Rel : F → F → Prop}
    (hfork : ∀ f g, I f → X.make (X.post f) = .ok g → Rel f g)
    (hpost : ∀ f g, Rel f g → X.post f = X.post g)
    (hstep : ∀ f g c, Rel f g →
      SameOutcome (fun x y => x.1 = y.1 ∧ Rel x.2 y.2) (X.step f c) (X.step g c)) :
    ContinuesAlike X := by
  intro prog s s' i cs hrun hclone
  have h0 := Refines.run_same (Refines.inv_start (FilterVar.forkRefines hX)) prog
  rw [hrun] at h0
  obtain ⟨t, ht, fp, hinv0⟩ := h0.ok_left
  have hI := value_inv (I := I) hmake hinv (by intro i f hi; simp at hi) ht
  have h1 := Refines.exec_same hinv0 (.clone i)
  rw [hclone] at h1
  obtain ⟨t', ht', fp', hinv1⟩ := h1.ok_left
  have hlen := hinv0.len
  simp only [ValueClass.exec, Outcome.bind_eq_ok, Outcome.pure_eq, Outcome.ok.injEq] at ht'
  obtain ⟨f, hv, g, hg, rfl⟩ := ht'
  have hf : t.vals[i]? = some (some f) := by
    unfold ValueClass.value at hv
    split at hv
    · cases hv; assumption
    · cases hv
  have hil : i < t.vals.length := (List.getElem?_eq_some_iff.1 hf).1
  have hR : Rel f g := hfork f g (hI i f hf) hg
  have hsim := value_sim (X := X) hstep cs
    (t := { t with vals := t.vals ++ [some g] }) (u := { t with vals := t.vals ++ [some g] })
    (i := i) (j := s.objs.length) (f := f) (g := g)
    (by show (t.vals ++ [some g])[i]? = _; rw [List.getElem?_append_left hil, hf])
    (by show (t.vals ++ [some g])[s.objs.length]? = _; rw [hlen, List.getElem?_concat_length]) hR rfl
  have ra := Refines.run_same hinv1 (cs.map (.call i))
  have rb := Refines.run_same hinv1 (cs.map (.call s.objs.length))
  revert ra rb hsim
  generalize X.forkImpl.run s' (cs.map (.call i)) = A
  generalize X.forkImpl.run s' (cs.map (.call s.objs.length)) = B
  generalize (filterForks X).run { t with vals := t.vals ++ [some g] } (cs.map (.call i)) = A'
  generalize (filterForks X).run { t with vals := t.vals ++ [some g] } (cs.map (.call s.objs.length)) = B'
  intro hsim ra rb
  cases A' with
  | abort =>
    cases A <;> first | exact ra.elim | skip
    cases B' <;> first | exact hsim.elim | skip
    cases B <;> first | exact rb.elim | trivial
  | ub =>
    cases A <;> first | exact ra.elim | skip
    cases B' <;> first | exact hsim.elim | skip
    cases B <;> first | exact rb.elim | trivial
  | ok a' =>
    obtain ⟨a, rfl, ra⟩ := ra.ok_right
    obtain ⟨b', rfl, hsim⟩ := hsim.ok_left
    obtain ⟨b, rfl, rb⟩ := rb.ok_right
    obtain ⟨hrets, f', g', hf', hg', hR'⟩ := hsim
    obtain ⟨fa, ia⟩ := ra
    obtain ⟨fb, ib⟩ := rb
    refine ⟨by rw [ia.rets, ib.rets, hrets], ?_⟩
    rw [ia.observe, ib.observe]
    simp only [ValueClass.value, hf', hg', Outcome.ok_bind, hpost _ _ hR']

end Alike

/-! ## Assignment -/

section Assign

variable {P F C : Type} {X : FilterClass P F C}

theorem assign_vars {s s' : ClientState (PdfCell P) (FilterVar F)} {i j : Nat}
    (ha : HeapImpl.assign s i j = .ok s') :
    ∃ v w, s'.objs[i]? = some (some v) ∧ s'.objs[j]? = some (some w) ∧ v = w := by
  simp only [HeapImpl.assign, Outcome.bind_eq_ok, Outcome.pure_eq, Outcome.ok.injEq] at ha
  obtain ⟨v0, hv0, w, hw, rfl⟩ := ha
  have var_ok : ∀ k (v : FilterVar F), HeapImpl.var s.objs k = .ok v → s.objs[k]? = some (some v) := by
    intro k v hv
    unfold HeapImpl.var at hv
    split at hv
    · cases hv; assumption
    · cases hv
  have hi := (List.getElem?_eq_some_iff.1 (var_ok i v0 hv0)).1
  refine ⟨w, w, List.getElem?_set_self hi, ?_, rfl⟩
  by_cases h : i = j
  · subst h; exact List.getElem?_set_self hi
  · show (s.objs.set i _)[j]? = _
    rw [List.getElem?_set_ne h]
    exact var_ok j w hw

theorem destroy_both {s : ClientState (PdfCell P) (FilterVar F)} {i j : Nat} (hij : i ≠ j)
    {v w : FilterVar F} (hv : s.objs[i]? = some (some v)) (hw : s.objs[j]? = some (some w))
    (he : v.post = w.post) : X.copyImpl.run s [.destroy i, .destroy j] = .ub := by
  simp only [HeapImpl.run, HeapImpl.exec, HeapImpl.var, hv, Outcome.ok_bind]
  show ((FilterClass.destroyVar s.heap v >>= _) >>= _) = _
  cases hp : v.post with
  | none =>
    simp [FilterClass.destroyVar, FilterVar.toObj, hp, readMember]
  | some a =>
    have hp' : w.post = some a := he ▸ hp
    simp only [FilterClass.destroyVar, FilterVar.toObj_of hp, Outcome.ok_bind, FilterObj.destroy, deletePdf,
      Heap.read]
    cases hg : s.heap.get a with
    | none => rfl
    | some cell =>
      simp only [Outcome.ok_bind]
      cases hd : cell.dynamic with
      | false => rfl
      | true =>
        simp only [if_true, Heap.free_ok hg, Outcome.ok_bind, Outcome.pure_eq,
          List.getElem?_set_ne hij, hw]
        show (FilterClass.destroyVar (s.heap.upd a none) w >>= _) >>= _ = _
        have hn : (s.heap.upd a none).get a = none := by
          rw [Heap.upd_get (Heap.lt_of_get hg), if_pos rfl]
        simp only [FilterClass.destroyVar, FilterVar.toObj_of hp', Outcome.ok_bind, FilterObj.destroy,
          deletePdf, Heap.read, hn]
        rfl

/-- Nothing refers to the cell `a`. -/
structure Orphan (s : ClientState (PdfCell P) (FilterVar F)) (a : Addr) (cell : PdfCell P) : Prop where
  cell : s.heap.get a = some cell
  none : ∀ (k : Nat) w, s.objs[k]? = some (some w) → w.post ≠ some a

theorem Orphan.exec {s t : ClientState (PdfCell P) (FilterVar F)} {a : Addr} {cell : PdfCell P}
    (h : Orphan s a cell) {c : Cmd P C} (he : X.forkImpl.exec s c = .ok t) : Orphan t a cell := by
  have hl := Heap.lt_of_get h.cell
  have con : ∀ (H H' : Heap (PdfCell P)) b (o : FilterObj F), X.construct H b = .ok (H', o) →
      H.get a = some cell → H'.get a = some cell ∧ o.post = H.size := by
    intro H H' b o hc hg
    simp only [FilterClass.construct, Outcome.bind_eq_ok, Outcome.pure_eq, Outcome.ok.injEq,
      Prod.mk.injEq] at hc
    obtain ⟨p, _, f, _, rfl, rfl⟩ := hc
    exact ⟨by rw [Heap.alloc_get_lt (Heap.lt_of_get hg), hg], rfl⟩
  have push : ∀ (H : Heap (PdfCell P)) (w : FilterVar F) (b : Addr), w.post = some b → b ≠ a →
      H.get a = some cell → Orphan { s with heap := H, objs := s.objs ++ [some w] } a cell := by
    intro H w b hw hb hg
    refine ⟨hg, fun k u hk => ?_⟩
    rw [List.getElem?_append] at hk
    split at hk
    · exact h.none k u hk
    · rw [List.getElem?_singleton] at hk
      split at hk
      · cases hk
        rw [hw]
        exact fun e => hb (Option.some.inj e)
      · cases hk
  have var_ok : ∀ k (v : FilterVar F), HeapImpl.var s.objs k = .ok v → s.objs[k]? = some (some v) := by
    intro k v hv
    unfold HeapImpl.var at hv
    split at hv
    · cases hv; assumption
    · cases hv
  have obj_ok : ∀ (v : FilterVar F) o, v.toObj = .ok o → v.post = some o.post := by
    intro v o hv
    unfold FilterVar.toObj at hv
    cases hp : v.post with
    | none => rw [hp] at hv; cases hv
    | some b => rw [hp] at hv; cases hv; rfl
  cases c with
  | new p =>
    simp only [HeapImpl.exec, Outcome.bind_eq_ok, Outcome.pure_eq, Outcome.ok.injEq, Prod.exists] at he
    obtain ⟨H, w, hn, rfl⟩ := he
    simp only [FilterClass.forkImpl, FilterClass.newVar, Outcome.bind_eq_ok, Outcome.pure_eq,
      Outcome.ok.injEq, Prod.exists, Prod.mk.injEq] at hn
    obtain ⟨H', o, hc, rfl, rfl⟩ := hn
    obtain ⟨k1, k2⟩ := con _ _ _ _ hc (by rw [Heap.alloc_get_lt hl, h.cell])
    refine push _ _ o.post rfl ?_ k1
    rw [k2, Heap.alloc_size]
    have : a < s.heap.size := hl
    omega
  | clone i =>
    simp only [HeapImpl.exec, Outcome.bind_eq_ok, Outcome.pure_eq, Outcome.ok.injEq, Prod.exists] at he
    obtain ⟨v, _, H, w, hn, rfl⟩ := he
    simp only [FilterClass.forkImpl, FilterClass.fork, Outcome.bind_eq_ok, Outcome.pure_eq,
      Outcome.ok.injEq, Prod.exists, Prod.mk.injEq] at hn
    obtain ⟨_, _, H', o, hc, rfl, rfl⟩ := hn
    obtain ⟨k1, k2⟩ := con _ _ _ _ hc h.cell
    refine push _ _ o.post rfl ?_ k1
    rw [k2]
    exact Ne.symm (Nat.ne_of_lt hl)
  | call i c =>
    simp only [HeapImpl.exec, Outcome.bind_eq_ok, Outcome.pure_eq, Outcome.ok.injEq, Prod.exists] at he
    obtain ⟨v, hv, b, H, w, hn, rfl⟩ := he
    simp only [FilterClass.forkImpl, FilterClass.updateVar, Outcome.bind_eq_ok, Outcome.pure_eq,
      Outcome.ok.injEq, Prod.exists, Prod.mk.injEq] at hn
    obtain ⟨o, ho, _, H', o', hu, rfl, rfl, rfl⟩ := hn
    have hvp := obj_ok v o ho
    have hne : o.post ≠ a := fun e => h.none i v (var_ok i v hv) (by rw [hvp, e])
    obtain ⟨c0, f, f', hc0, _, _, rfl, _⟩ := FilterClass.update_ok hu
    refine ⟨by rw [Heap.upd_get_ne (Ne.symm hne), h.cell], fun k u hk => ?_⟩
    simp only [List.getElem?_set] at hk
    split at hk
    · split at hk
      · cases hk; exact h.none i v (var_ok i v hv)
      · cases hk
    · exact h.none k u hk
  | destroy i =>
    simp only [HeapImpl.exec, Outcome.bind_eq_ok, Outcome.pure_eq, Outcome.ok.injEq] at he
    obtain ⟨v, hv, H, hn, rfl⟩ := he
    simp only [FilterClass.forkImpl, FilterClass.destroyVar, Outcome.bind_eq_ok, FilterObj.destroy,
      deletePdf, Heap.read_eq_ok] at hn
    obtain ⟨o, ho, c0, hc0, hn⟩ := hn
    have hvp := obj_ok v o ho
    have hne : o.post ≠ a := fun e => h.none i v (var_ok i v hv) (by rw [hvp, e])
    split at hn
    · rw [Heap.free_ok hc0] at hn
      cases hn
      refine ⟨by rw [Heap.upd_get_ne (Ne.symm hne), h.cell], fun k u hk => ?_⟩
      simp only [List.getElem?_set] at hk
      split at hk
      · split at hk <;> cases hk
      · exact h.none k u hk
    · cases hn

theorem Orphan.run {prog : List (Cmd P C)} {s t : ClientState (PdfCell P) (FilterVar F)} {a : Addr}
    {cell : PdfCell P} (h : Orphan s a cell) (hr : X.forkImpl.run s prog = .ok t) : Orphan t a cell := by
  induction prog generalizing s with
  | nil => cases hr; exact h
  | cons c cs ih =>
    simp only [HeapImpl.run, Outcome.bind_eq_ok] at hr
    obtain ⟨s1, h1, h2⟩ := hr
    exact ih (h.exec h1) h2

theorem assign_leak (hX : X.Lawful) {prog more : List (Cmd P C)}
    {s s' t : ClientState (PdfCell P) (FilterVar F)} {i j : Nat} (hij : i ≠ j)
    (hs : X.forkImpl.run HeapImpl.start prog = .ok s) (ha : HeapImpl.assign s i j = .ok s')
    (hr : X.forkImpl.run s' more = .ok t) :
    ∃ v a cell, s.objs[i]? = some (some v) ∧ v.post = some a ∧ s.heap.get a = some cell ∧
      t.heap.get a = some cell ∧ ∀ (k : Nat) w, t.objs[k]? = some (some w) → w.post ≠ some a := by
  have h0 := Refines.run_same (Refines.inv_start (FilterVar.forkRefines hX)) prog
  rw [hs] at h0
  obtain ⟨u, _, fp, hinv⟩ := h0.ok_left
  have var_ok : ∀ k (v : FilterVar F), HeapImpl.var s.objs k = .ok v → s.objs[k]? = some (some v) := by
    intro k v hv
    unfold HeapImpl.var at hv
    split at hv
    · cases hv; assumption
    · cases hv
  simp only [HeapImpl.assign, Outcome.bind_eq_ok, Outcome.pure_eq, Outcome.ok.injEq] at ha
  obtain ⟨v, hv, w, hw, rfl⟩ := ha
  have hv' := var_ok i v hv
  have hw' := var_ok j w hw
  obtain ⟨f, _, a, hpa, hfa, hga, _⟩ := hinv.rep i v hv'
  have other : ∀ (k : Nat) x, k ≠ i → s.objs[k]? = some (some x) → x.post ≠ some a := by
    intro k x hk hx
    obtain ⟨g, _, b, hpb, hfb, _, _⟩ := hinv.rep k x hx
    rw [hpb]
    intro e
    cases e
    have := hinv.sep i k v x (Ne.symm hk) hv' hx a (by rw [hfa]; simp)
    rw [hfb] at this
    simp at this
  have horph : Orphan { s with objs := s.objs.set i (some w) } a ⟨X.post f, true⟩ := by
    refine ⟨hga, fun k x hk => ?_⟩
    simp only [List.getElem?_set] at hk
    split at hk
    · split at hk
      · cases hk; exact other j w (Ne.symm hij) hw'
      · cases hk
    · rename_i hne
      exact other k x (Ne.symm hne) hk
  have hfin := horph.run hr
  exact ⟨v, a, _, hv', hpa, hga, hfin.cell, hfin.none⟩

end Assign

/-! ## Histograms -/

section Histogram

variable {K Z : Type} [Field K] [LinearOrder K] [IsStrictOrderedRing K]

namespace DiscretePdf

/-- The table is that of the values, or the values are all zero. -/
def Tabled (d : DiscretePdf K) : Prop := d.cum = setLast (runningSums 0 d.values) 1 ∨ d.values.sum = 0

theorem probabilitiesSet_tabled {d d' : DiscretePdf K} {v : List K} {b : Bool}
    (h : d.probabilitiesSet v = .ok (b, d')) : Tabled d' := by
  obtain ⟨hv, hl, hp, hz⟩ := probabilitiesSet_inv h
  cases b with
  | true =>
    unfold probabilitiesSet at h
    simp only [Outcome.bind_eq_ok, Prod.exists] at h
    obtain ⟨w, _, _, _, b, d1, _, h⟩ := h
    cases b with
    | true =>
      obtain ⟨_, e1, e2⟩ := cumUpdate_ok h
      left
      rw [e1, e2]
    | false => cases h
  | false =>
    right
    rw [probabilitiesSet_zero hv hl (hz rfl)] at h
    cases h
    exact hz rfl

theorem copy_tabled {d d' : DiscretePdf K} (hd : Tabled d) (h : d.copy = .ok d') : d' = d := by
  simp only [copy, Outcome.bind_eq_ok, Outcome.pure_eq, Outcome.ok.injEq] at h
  obtain ⟨⟨b, r⟩, hr, rfl⟩ := h
  rcases hd with hd | hd
  · obtain ⟨_, e1, e2⟩ := cumUpdate_ok hr
    obtain ⟨vs, cum⟩ := r
    obtain ⟨vs', cum'⟩ := d
    simp only at e1 e2 hd ⊢
    rw [e1, e2, hd]
  · rw [cumUpdate_bad (d := { values := d.values, cum := List.replicate (d.numStates + 1) 0 })
      (by rw [hd]; unfold numericPrecision; norm_num)] at hr
    cases hr

end DiscretePdf

namespace HistogramFilter

/-- The posterior is consistent and the work space has its length. -/
def Ready (f : HistogramFilter K) : Prop :=
  f.post.Tabled ∧ f.newProb.length = f.post.values.length

theorem make_ready {p : DiscretePdf K} {f : HistogramFilter K} (h : make p = .ok f) : f.Ready := by
  have hs := (make_sized h).1
  refine ⟨?_, hs.2.1.trans hs.1.symm⟩
  simp only [make, Outcome.bind_eq_ok, Outcome.pure_eq, Outcome.ok.injEq] at h
  obtain ⟨c, hc, rfl⟩ := h
  simp only [DiscretePdf.copy, Outcome.bind_eq_ok, Outcome.pure_eq, Outcome.ok.injEq] at hc
  obtain ⟨⟨b, r⟩, hr, rfl⟩ := hc
  obtain ⟨_, e1, e2⟩ := DiscretePdf.cumUpdate_ok hr
  left
  show r.cum = setLast (runningSums 0 r.values) 1
  rw [e1, e2]

theorem update_ready {f f' : HistogramFilter K} {c : Call Z K} {b : Bool} (hf : f.Ready)
    (h : f.update c = .ok (b, f')) : f'.Ready := by
  have hs : Sized f.post.values.length { f with timestep := 0 } := ⟨rfl, hf.2, rfl⟩
  obtain ⟨sys, meas⟩ := c
  simp only [update, Outcome.bind_eq_ok, Outcome.pure_eq, Outcome.ok.injEq, Prod.mk.injEq] at h
  obtain ⟨f1, h1, f2, h2, rfl, rfl⟩ := h
  have hf1 : f1.Ready := by
    rcases sys with _ | ⟨m, u⟩
    · simp only [sysPart, Outcome.ok.injEq] at h1; exact h1 ▸ hf
    · simp only [sysPart, sysUpdate, Outcome.bind_eq_ok, Outcome.pure_eq, Outcome.ok.injEq] at h1
      obtain ⟨_, _, new, hn, ⟨b, post⟩, hp, rfl⟩ := h1
      refine ⟨DiscretePdf.probabilitiesSet_tabled hp, ?_⟩
      show new.length = post.values.length
      rw [probabilitiesSet_length hp, predictLoop_length _ _ _ _ hn]
      exact hf.2
  rcases meas with _ | ⟨m, z, s⟩
  · simp only [measPart, Outcome.ok.injEq] at h2; exact h2 ▸ hf1
  · simp only [measPart, measUpdate, Outcome.bind_eq_ok, Outcome.pure_eq, Outcome.ok.injEq] at h2
    obtain ⟨_, _, ⟨b, post⟩, hp, rfl⟩ := h2
    refine ⟨DiscretePdf.probabilitiesSet_tabled hp, ?_⟩
    show f1.newProb.length = post.values.length
    rw [probabilitiesSet_length hp]
    exact hf1.2

theorem fork_same {f g : HistogramFilter K} (hf : f.Ready) (h : make f.post = .ok g) :
    f.Same f.post.values.length g := by
  have hs := (make_sized h).1
  simp only [make, Outcome.bind_eq_ok, Outcome.pure_eq, Outcome.ok.injEq] at h
  obtain ⟨c, hc, rfl⟩ := h
  exact ⟨(DiscretePdf.copy_tabled hf.1 hc).symm, rfl, hf.2, hs.2.1⟩

end HistogramFilter

end Histogram

/-! ## Smoothers -/

section Rts

variable {K : Type} [Field K] [LinearOrder K] {n : Nat} {U : Type}

/-- Equal posteriors. -/
def RTS.Same (f g : RTS K n) : Prop := f.mu = g.mu ∧ f.sigma = g.sigma

theorem RTS.step_same (be : Backend) (f g : RTS K n) (c : RTS.Call K n U) (h : f.Same g) :
    SameOutcome (fun x y => x.1 = y.1 ∧ RTS.Same x.2 y.2) ((rtsClass be).step f c)
      ((rtsClass be).step g c) := by
  obtain ⟨h1, h2⟩ := h
  show SameOutcome _ (f.update be c.sys c.u c.filtered.1 c.filtered.2)
    (g.update be c.sys c.u c.filtered.1 c.filtered.2)
  unfold RTS.update RTS.sysUpdate
  simp only [h1, h2]
  refine SameOutcome.bind (R := RTS.Same) ?_ fun a b hab => ⟨rfl, hab⟩
  refine SameOutcome.bind SameOutcome.refl_eq fun a b hab => ?_; subst hab
  refine SameOutcome.bind SameOutcome.refl_eq fun a b hab => ?_; subst hab
  refine SameOutcome.bind SameOutcome.refl_eq fun a b hab => ?_; subst hab
  refine SameOutcome.bind SameOutcome.refl_eq fun a b hab => ?_; subst hab
  exact ⟨rfl, rfl⟩

end Rts

end BFL
