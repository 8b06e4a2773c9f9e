import Verif.Props.AuxiliarySetup

/-!
# C109: the auxiliary particle filter
-/

set_option linter.unusedSectionVars false

namespace BFL.Props

open Spec MCPdf Cloud

variable {R SV MV K : Type} [Field K] [LinearOrder K] [IsStrictOrderedRing K]

section lists

theorem reweighted_iff {g : Nat → K} {ps ps' : List (SV × K)} :
    Reweighted g ps ps' ↔ ps' = ps.mapIdx fun i a => (a.1, a.2 * g i / totalWeight g ps) := by
  constructor
  · rintro ⟨hl, h⟩
    apply List.ext_getElem (by simp [hl])
    intro i h1 h2
    rw [h i (by omega)]
    simp
  · rintro rfl
    exact ⟨by simp, fun i hi => by simp⟩

theorem reweighted_congr {g g' : Nat → K} {ps ps' : List (SV × K)} (h : ∀ i < ps.length, g i = g' i) :
    Reweighted g ps ps' → Reweighted g' ps ps' := by
  rintro ⟨hl, hr⟩
  have ht : totalWeight g ps = totalWeight g' ps := by
    unfold totalWeight
    exact Finset.sum_congr rfl fun i _ => by rw [h i i.2]
  exact ⟨hl, fun i hi => by rw [hr i hi, ht, h i hi]⟩

/-- A common factor makes no difference. -/
theorem reweighted_const {g : Nat → K} {ps ps' : List (SV × K)} {c : K} (hc : c ≠ 0) :
    Reweighted (fun i => g i / c) ps ps' ↔ Reweighted g ps ps' := by
  have ht : totalWeight (fun i => g i / c) ps = totalWeight g ps / c := by
    unfold totalWeight
    rw [Finset.sum_div]
    exact Finset.sum_congr rfl fun i _ => by ring
  have : ∀ w i, w * (g i / c) / totalWeight (fun i => g i / c) ps = w * g i / totalWeight g ps := by
    intro w i
    rw [ht, ← mul_div_assoc, div_div_div_cancel_right₀ hc]
  simp only [Reweighted, this]

theorem mapIdx_replicate {α β : Type} {f : Nat → α → β} {n : Nat} {a : α} {b : β}
    (h : ∀ i < n, f i a = b) : (List.replicate n a).mapIdx f = List.replicate n b := by
  apply List.ext_getElem (by simp)
  intro i h1 h2
  simp only [List.length_replicate] at h2
  simp [h i h2]

end lists

variable {dflt : SV} {root : Nat → K → K}

/-- **C109, the steps of an update.** An update with a system model and a measurement, of a filter whose
weights are normalised, when some look-ahead is compatible with the measurement: the particles are
resampled in proportion to their weights times the likelihoods of their look-aheads, and they are moved.
Then the weight of particle `i` is multiplied by its likelihood divided by the likelihood of the
look-ahead of the particle that was at place `i` *before* the resampling. -/
theorem C109_update (hroot : IsRoot root) {noise : Noise R K} (hus : Uniforms noise.static)
    {aux : AuxSystem R SV K} {T : SV → SV → SV → K} {look : SV → SV → SV} (ha : IsAuxSystem aux T look)
    {mm : Model SV MV K} {L : MV → SV → SV → K} (hL : IsLikelihood mm L) {c : AuxCall R SV MV K}
    (hs : c.sys = some aux) (hm : c.meas = some mm) {a : AsirFilter R SV K}
    (hr : AuxReached MV dflt root a) {ps : List (SV × K)} (hp : Holds a.pf.postGet ps) (hn : Normalised ps)
    (hmu : Room a.mu ps.length)
    (hpos : 0 < totalWeight (fun i => L c.z (look (valueAt dflt ps i) c.u) c.s) ps) :
    ∃ chosen parents moved q, aux.sys.proposal = some q ∧
      Reweighted (fun i => L c.z (look (valueAt dflt ps i) c.u) c.s) ps chosen ∧
      Resampled (selectors root noise.static ps.length) chosen parents ∧
      Moved (Draws q aux.sys c.u noise.prop) parents moved ∧
      (0 < totalWeight (fun i => L c.z (valueAt dflt moved i) c.s /
          L c.z (look (valueAt dflt ps i) c.u) c.s) moved →
        ∃ a' ps', a.update dflt root noise c = .ok a' ∧ Holds a'.pf.postGet ps' ∧
          Reweighted (fun i => L c.z (valueAt dflt moved i) c.s /
            L c.z (look (valueAt dflt ps i) c.u) c.s) moved ps') := by
  have hlive := hr.inv.1.live hp hn
  have hlen : a.pf.cloud.post.numSamples = ps.length := by simp [numSamples, hlive.samples]
  have hmu' : ps.length ≤ (a.mu.getD (List.replicate a.pf.cloud.post.numSamples dflt)).length := by
    cases h : a.mu with
    | none => simp [hlen]
    | some l => simpa using hmu l h
  obtain ⟨f', chosen, parents, moved, q, h1, h2, h3, h4, h5, h6⟩ :=
    sysPart_live hroot hus ha hL hs hm hlive hr.inv.2 hmu' hpos
  refine ⟨chosen, parents, moved, q, h1, h4, h5, h6, fun hpos' => ?_⟩
  have hml : moved.length = ps.length := by
    obtain ⟨g1, _⟩ := h6
    obtain ⟨g2, _⟩ := h4
    rw [g1, h5.1, g2]
  set mu := a.mu.getD (List.replicate a.pf.cloud.post.numSamples dflt) with hmudef
  have hat : ∀ i < moved.length, L c.z (valueAt dflt moved i) c.s /
      L c.z (look (valueAt dflt ps i) c.u) c.s = L c.z (valueAt dflt moved i) c.s /
        L c.z ((((ps.map fun x => look x.1 c.u) ++ mu.drop ps.length)[i]?).getD dflt) c.s := by
    intro i hi
    have hi' : i < ps.length := by omega
    rw [List.getElem?_append_left (by simpa using hi')]
    simp [valueAt_of_lt dflt hi', hi']
  have htot := hpos'
  rw [show totalWeight (fun i => L c.z (valueAt dflt moved i) c.s /
      L c.z (look (valueAt dflt ps i) c.u) c.s) moved = totalWeight (fun i => L c.z (valueAt dflt moved i) c.s /
        L c.z ((((ps.map fun x => look x.1 c.u) ++ mu.drop ps.length)[i]?).getD dflt) c.s) moved from
    Finset.sum_congr rfl fun i _ => congrArg (moved[i].2 * ·) (hat i i.2)] at htot
  obtain ⟨f2, ps', g1, g2, g3⟩ := measPart_live (dflt := dflt) hL hm h3
    (mu := (ps.map fun x => look x.1 c.u) ++ mu.drop ps.length) (by simp [hml]) htot
  refine ⟨⟨f2, some ((ps.map fun x => look x.1 c.u) ++ mu.drop ps.length)⟩, ps', ?_, g2,
    reweighted_congr (fun i hi => (hat i hi).symm) g3⟩
  simp only [AsirFilter.update, ← hmudef, h2, Outcome.ok_bind, g1, Outcome.pure_eq]

/-- **C109, when it is an auxiliary particle filter.** If the look-aheads of all particles fit the
measurement equally well, the update is a step of the auxiliary particle filter. What is missing for the
full claim: the same without that hypothesis, which is false, see `C109_wrong_ancestor`. -/
theorem C109_partial (hroot : IsRoot root) {noise : Noise R K} (hus : Uniforms noise.static)
    {aux : AuxSystem R SV K} {T : SV → SV → SV → K} {look : SV → SV → SV} (ha : IsAuxSystem aux T look)
    {mm : Model SV MV K} {L : MV → SV → SV → K} (hL : IsLikelihood mm L) {c : AuxCall R SV MV K}
    (hs : c.sys = some aux) (hm : c.meas = some mm) (hL0 : ∀ x, 0 < L c.z x c.s) {a : AsirFilter R SV K}
    (hr : AuxReached MV dflt root a) {ps : List (SV × K)} (hp : Holds a.pf.postGet ps) (hn : Normalised ps)
    (hmu : Room a.mu ps.length)
    (heq : ∀ x ∈ ps, ∀ y ∈ ps, L c.z (look x.1 c.u) c.s = L c.z (look y.1 c.u) c.s) :
    ∃ q a' ps', aux.sys.proposal = some q ∧ a.update dflt root noise c = .ok a' ∧ Holds a'.pf.postGet ps' ∧
      AuxiliaryStep dflt (fun x => L c.z x c.s) (fun x => look x c.u)
        (selectors root noise.static ps.length) (Draws q aux.sys c.u noise.prop) ps ps' := by
  have hlive := hr.inv.1.live hp hn
  have hpos : ∀ {qs : List (SV × K)} {g : Nat → K}, (∀ i, 0 < g i) → (∀ x ∈ qs, 0 ≤ x.2) →
      (qs.map Prod.snd).sum = 1 → 0 < totalWeight g qs := by
    intro qs g hg h0 h1
    have hnn : ∀ i : Fin qs.length, 0 ≤ qs[i].2 * g i := fun i =>
      mul_nonneg (h0 _ (List.getElem_mem _)) (hg i).le
    rcases (Finset.sum_nonneg fun i _ => hnn i).lt_or_eq with h | h
    · exact h
    · exfalso
      have hz := (Finset.sum_eq_zero_iff_of_nonneg fun i _ => hnn i).1 h.symm
      have : (qs.map Prod.snd).sum = 0 := by
        apply List.sum_eq_zero
        intro w hw
        obtain ⟨x, hx, rfl⟩ := List.mem_map.1 hw
        obtain ⟨i, hi, rfl⟩ := List.mem_iff_getElem.1 hx
        have := hz ⟨i, hi⟩ (Finset.mem_univ _)
        exact (mul_eq_zero.1 this).resolve_right (hg i).ne'
      rw [this] at h1
      exact zero_ne_one h1
  obtain ⟨chosen, parents, moved, q, h1, h2, h3, h4, h5⟩ := C109_update hroot hus ha hL hs hm hr hp hn hmu
    (hpos (fun i => hL0 _) hlive.nonneg hn.2)
  have hc := h2.1
  have hpl : parents.length = ps.length := by rw [h3.1, hc]
  have hps : 0 < ps.length := hlive.pos
  have hpar : ∀ i (hi : i < parents.length), ∃ j, ∃ hj : j < ps.length, parents[i] = (ps[j].1, 1 / (chosen.length : K)) := by
    intro i hi
    obtain ⟨j, hj, _, e⟩ := h3.2 i hi
    refine ⟨j, by omega, ?_⟩
    rw [e]
    obtain ⟨hl, h2⟩ := h2
    rw [h2 j (by omega)]
  have hlook : ∀ i < moved.length, L c.z (look (valueAt dflt ps i) c.u) c.s =
      L c.z (look (valueAt dflt parents i) c.u) c.s := by
    intro i hi
    have hi1 : i < parents.length := by rw [h4.1] at hi; exact hi
    have hi2 : i < ps.length := by omega
    obtain ⟨j, hj, e⟩ := hpar i hi1
    rw [valueAt_of_lt dflt hi1, valueAt_of_lt dflt hi2, e]
    exact heq ps[i] (List.getElem_mem _) ps[j] (List.getElem_mem _)
  have hsnd : moved.map Prod.snd = parents.map Prod.snd := Cloud.Moved.snd h4
  have hpw : parents = parents.map fun x => (x.1, 1 / (ps.length : K)) := by
    apply List.ext_getElem (by simp)
    intro i h1 h2
    obtain ⟨j, hj, e⟩ := hpar i h1
    simp [e, hc]
  have hsum : (moved.map Prod.snd).sum = 1 := by
    rw [hsnd, hpw]
    simp only [List.map_map, Function.comp_def, List.map_const', List.sum_replicate, nsmul_eq_mul, hpl]
    exact mul_one_div_cancel (by exact_mod_cast hps.ne')
  have hmn : ∀ x ∈ moved, 0 ≤ x.2 := by
    intro x hx
    have : x.2 ∈ parents.map Prod.snd := by rw [← hsnd]; exact List.mem_map_of_mem hx
    rw [hpw] at this
    simp only [List.map_map, List.mem_map, Function.comp_def] at this
    obtain ⟨_, _, e⟩ := this
    rw [← e]
    positivity
  obtain ⟨a', ps', g1, g2, g3⟩ := h5 (hpos (fun i => div_pos (hL0 _) (hL0 _)) hmn hsum)
  exact ⟨q, a', ps', h1, g1, g2, chosen, parents, moved, h2, h3, h4,
    reweighted_congr (fun i hi => by rw [hlook i hi]) g3⟩

/-! ## The ancestors -/

section ancestors

variable {R MV K : Type} [Field K] [LinearOrder K] [IsStrictOrderedRing K] {root : Nat → K → K}

/-- `4 * k` particles of equal weight: the first half in one of two states, the second half in the
other. -/
def halves (k : Nat) : List (Bool × K) :=
  List.replicate (2 * k) (false, 1 / (4 * k : K)) ++ List.replicate (2 * k) (true, 1 / (4 * k : K))

theorem halves_length (k : Nat) : (halves (K := K) k).length = 4 * k := by
  simp [halves]; omega

theorem valueAt_halves (k : Nat) (i : Nat) (hi : i < 4 * k) :
    valueAt false (halves (K := K) k) i = decide (2 * k ≤ i) := by
  rw [valueAt_of_lt false (by rw [halves_length]; exact hi)]
  unfold halves
  by_cases h : i < 2 * k
  · rw [List.getElem_append_left (by simpa using h)]
    simp [Nat.not_le.2 h]
  · rw [List.getElem_append_right (by simpa using h)]
    simp [Nat.not_lt.1 h]

/-- Resampling in proportion to weights 1 and 3. -/
theorem parents_eq {k : Nat} (hk : 0 < k) {l : Bool → K} (h0 : 0 < l false) (h1 : l true = 3 * l false)
    {v : Nat → K} (hv : ∀ i : Nat, i < 4 * k → (i < k → v i ≤ 1 / 4) ∧ (k ≤ i → 1 / 4 < v i))
    {chosen parents : List (Bool × K)} (hc : Reweighted (fun i => l (valueAt false (halves (K := K) k) i)) (halves k) chosen)
    (hp : Resampled v chosen parents) :
    parents = List.replicate k (false, 1 / (4 * k : K)) ++
      (List.replicate k (true, 1 / (4 * k : K)) ++ List.replicate (2 * k) (true, 1 / (4 * k : K))) := by
  have hk' : (k : K) ≠ 0 := by exact_mod_cast hk.ne'
  have hc2 := reweighted_congr (g' := fun i => if i < 2 * k then l false else 3 * l false)
    (fun i hi => by
      rw [halves_length] at hi
      rw [valueAt_halves k i hi]
      by_cases h : i < 2 * k
      · simp [h, Nat.not_le.2 h]
      · simp [h, Nat.not_lt.1 h, h1]) hc
  rw [reweighted_iff] at hc2
  have key : ∀ w : K → K → K, (halves k).mapIdx (fun i a => (a.1, w a.2 (if i < 2 * k then l false else 3 * l false))) =
      List.replicate (2 * k) (false, w (1 / (4 * k : K)) (l false)) ++
        List.replicate (2 * k) (true, w (1 / (4 * k : K)) (3 * l false)) := by
    intro w
    unfold halves
    rw [List.mapIdx_append]
    congr 1
    · exact mapIdx_replicate fun i hi => by simp [hi]
    · exact mapIdx_replicate fun i hi => by simp
  have ht : totalWeight (fun i => if i < 2 * k then l false else 3 * l false) (halves (K := K) k) = 2 * l false := by
    rw [totalWeight_eq, key (fun a b => a * b)]
    simp only [List.map_append, List.map_replicate, List.sum_append, List.sum_replicate, nsmul_eq_mul]
    push_cast
    field_simp
    ring
  rw [ht] at hc2
  have hc3 : chosen = List.replicate (2 * k) (false, 1 / (8 * k : K)) ++
      List.replicate (2 * k) (true, 3 / (8 * k : K)) := by
    rw [hc2, key (fun a b => a * b / (2 * l false))]
    congr 3
    · field_simp
      norm_num
    · field_simp
      norm_num
  have hlen : chosen.length = 4 * k := by rw [hc3]; simp; omega
  have hws : chosen.map Prod.snd = List.replicate (2 * k) (1 / (8 * k : K)) ++
      List.replicate (2 * k) (3 / (8 * k : K)) := by
    rw [hc3]; simp
  have hhalf : massBelow (chosen.map Prod.snd) (2 * k) = 1 / 4 := by
    rw [hws, massBelow, List.take_append_of_le_length (by simp), List.take_of_length_le (by simp),
      List.sum_replicate, nsmul_eq_mul]
    push_cast
    field_simp
    norm_num
  have hnn : ∀ w ∈ chosen.map Prod.snd, 0 ≤ w := by
    intro w hw
    rw [hws, List.mem_append] at hw
    rcases hw with hw | hw <;> · rw [List.eq_of_mem_replicate hw]; positivity
  have hmono : ∀ i j, i ≤ j → massBelow (chosen.map Prod.snd) i ≤ massBelow (chosen.map Prod.snd) j := by
    intro i j hij
    unfold massBelow
    rw [← List.take_append_drop i ((chosen.map Prod.snd).take j), List.sum_append, List.take_take,
      min_eq_left hij]
    have : 0 ≤ (List.drop i (List.take j (List.map Prod.snd chosen))).sum :=
      List.sum_nonneg fun x hx => hnn x (List.mem_of_mem_take (List.mem_of_mem_drop hx))
    linarith
  have hat : ∀ j (hj : j < chosen.length), chosen[j].1 = decide (2 * k ≤ j) := by
    intro j hj
    simp only [hc3]
    by_cases h : j < 2 * k
    · rw [List.getElem_append_left (by simpa using h)]
      simp [Nat.not_le.2 h]
    · rw [List.getElem_append_right (by simpa using h)]
      simp [Nat.not_lt.1 h]
  have hpar : ∀ i (hi : i < parents.length), parents[i] = (decide (k ≤ i), 1 / (4 * k : K)) := by
    intro i hi
    have hi' : i < 4 * k := by rw [hp.1, hlen] at hi; exact hi
    obtain ⟨j, hj, hinv, e⟩ := hp.2 i hi
    rw [e, hat j hj, hlen]
    push_cast
    congr 1
    obtain ⟨_, hlt, hle⟩ := hinv
    by_cases h : i < k
    · have := (hv i hi').1 h
      have hj2 : j < 2 * k := by
        by_contra hcon
        have := hmono _ _ (Nat.not_lt.1 hcon)
        linarith
      simp [Nat.not_le.2 h, Nat.not_le.2 hj2]
    · have h' := Nat.not_lt.1 h
      have := (hv i hi').2 h'
      have hj2 : 2 * k ≤ j := by
        by_contra hcon
        have := hmono (j + 1) (2 * k) (by omega)
        linarith
      simp [h', hj2]
  apply List.ext_getElem
  · rw [hp.1, hlen]; simp; omega
  · intro i h1 h2
    rw [hpar i h1]
    by_cases h : i < k
    · rw [List.getElem_append_left (by simpa using h)]
      simp [Nat.not_le.2 h]
    · rw [List.getElem_append_right (by simpa using h)]
      have h' := Nat.not_lt.1 h
      by_cases h3 : i - k < k
      · rw [List.getElem_append_left (by simpa using h3)]
        simp [h']
      · rw [List.getElem_append_right (by simpa using h3)]
        simp [h']

/-- **C109, the ancestors are mixed up.** A state that takes two values and stays as it is; a measurement
that is three times as likely in one of them; `4 * k` particles, half of them in each state. The exact
posterior probability of the more likely state is 3/4. When a quarter of the resampled particles, as they
should, are in the less likely state, the auxiliary particle filter gives 3/4, and this filter gives 5/6,
whatever the number of particles. -/
theorem C109_wrong_ancestor (hroot : IsRoot root) {k : Nat} (hk : 0 < k) {noise : Noise R K}
    (hus : Uniforms noise.static)
    (hv : ∀ i < 4 * k, (i < k → selectors root noise.static (4 * k) i ≤ 1 / 4) ∧
      (k ≤ i → 1 / 4 < selectors root noise.static (4 * k) i))
    {aux : AuxSystem R Bool K} {T : Bool → Bool → Bool → K} (ha : IsAuxSystem aux T fun x _ => x)
    (hstay : ∀ r x u prev, aux.sys.draw r (argsFor aux.sys x u) prev = .ok x)
    {mm : Model Bool MV K} {L : MV → Bool → Bool → K} (hL : IsLikelihood mm L) {c : AuxCall R Bool MV K}
    (hs : c.sys = some aux) (hm : c.meas = some mm) (h0 : 0 < L c.z false c.s)
    (h1 : L c.z true c.s = 3 * L c.z false c.s) {a : AsirFilter R Bool K}
    (hr : AuxReached MV false root a) (hp : Holds a.pf.postGet (halves k)) (hmu : Room a.mu (4 * k)) :
    weightOf (· = true) (reweightedBy (fun x => L c.z x c.s) (halves k)) = 3 / 4 ∧
    (∃ a' ps', a.update false root noise c = .ok a' ∧ Holds a'.pf.postGet ps' ∧
      weightOf (· = true) ps' = 5 / 6) ∧
    ∀ q ps', aux.sys.proposal = some q →
      AuxiliaryStep false (fun x => L c.z x c.s) id (selectors root noise.static (4 * k))
        (Draws q aux.sys c.u noise.prop) (halves k) ps' → weightOf (· = true) ps' = 3 / 4 := by
  have hk' : (k : K) ≠ 0 := by exact_mod_cast hk.ne'
  have hkp : (0 : K) < k := by exact_mod_cast hk
  generalize hl : (fun x => L c.z x c.s) = l
  have hlx : ∀ x, L c.z x c.s = l x := fun x => congrFun hl x
  simp only [hlx] at h0 h1
  have hmove : ∀ q, aux.sys.proposal = some q → ∀ parents moved : List (Bool × K),
      Moved (Draws q aux.sys c.u noise.prop) parents moved → moved = parents := by
    intro q hq parents moved ⟨hlen, h⟩
    have hqd : q.draw = aux.sys.draw := by
      simp only [SysModel.proposal, Option.map_eq_some_iff] at hq
      obtain ⟨_, _, rfl⟩ := hq
      rfl
    apply List.ext_getElem hlen
    intro i h1 h2
    obtain ⟨⟨prev, hd⟩, hw⟩ := h i h2
    rw [hqd, hstay] at hd
    exact Prod.ext (Outcome.ok.inj hd).symm hw
  have hn : Normalised (halves (K := K) k) := by
    constructor
    · intro w hw
      simp only [halves, List.map_append, List.map_replicate, List.mem_append] at hw
      rcases hw with hw | hw <;> · rw [List.eq_of_mem_replicate hw]; positivity
    · simp only [halves, List.map_append, List.map_replicate, List.sum_append, List.sum_replicate,
        nsmul_eq_mul]
      push_cast
      field_simp
      norm_num
  refine ⟨?_, ?_, ?_⟩
  · unfold reweightedBy weightOf halves
    simp only [List.map_append, List.map_replicate, List.sum_append, List.sum_replicate, nsmul_eq_mul,
      h1, if_true, Bool.false_eq_true, if_false]
    push_cast
    field_simp
    norm_num
  · obtain ⟨chosen, parents, moved, q, g1, g2, g3, g4, g5⟩ := C109_update hroot hus ha hL hs hm hr hp hn
      (by rw [halves_length]; exact hmu) (by
        simp only [hlx]
        have : ∀ i : Fin (halves (K := K) k).length, 0 < (halves (K := K) k)[i].2 * l (valueAt false (halves (K := K) k) i) := by
          intro i
          refine mul_pos ?_ ?_
          · have hall : ∀ x ∈ halves (K := K) k, 0 < x.2 := by
              intro x hx
              simp only [halves, List.mem_append] at hx
              rcases hx with h | h <;> · rw [List.eq_of_mem_replicate h]; positivity
            exact hall _ (List.getElem_mem _)
          · cases valueAt false (halves (K := K) k) i
            · exact h0
            · rw [h1]; positivity
        refine Finset.sum_pos (fun i _ => this i) ⟨⟨0, by rw [halves_length]; omega⟩, Finset.mem_univ _⟩)
    simp only [hlx, halves_length] at g2 g3 g5
    have hmv : moved = _ := (hmove q g1 _ _ g4).trans (parents_eq hk h0 h1 hv g2 g3)
    have hcg : ∀ i < moved.length, l (valueAt false moved i) / l (valueAt false (halves (K := K) k) i) =
        if i < k then 1 else if i < 2 * k then 3 else 1 := by
      intro i hi
      have hi' : i < 4 * k := by rw [hmv] at hi; simp at hi; omega
      rw [valueAt_halves k i hi', valueAt_of_lt false hi]
      simp only [hmv]
      by_cases h : i < k
      · rw [List.getElem_append_left (by simpa using h)]
        have : ¬ 2 * k ≤ i := by omega
        simp [h, this, h0.ne']
      · rw [List.getElem_append_right (by simpa using h)]
        by_cases h3 : i - k < k
        · rw [List.getElem_append_left (by simpa using h3)]
          have : ¬ 2 * k ≤ i := by omega
          have h4 : i < 2 * k := by omega
          simp [h, this, h4, h1, h0.ne']
        · rw [List.getElem_append_right (by simpa using h3)]
          have : 2 * k ≤ i := by omega
          have h4 : ¬ i < 2 * k := by omega
          have h5 : l true ≠ 0 := by rw [h1]; positivity
          simp [h, this, h4, h5]
    have key : ∀ w : K → K → K, moved.mapIdx (fun i a => (a.1, w a.2 (if i < k then 1 else if i < 2 * k then 3 else 1))) =
        List.replicate k (false, w (1 / (4 * k : K)) 1) ++ (List.replicate k (true, w (1 / (4 * k : K)) 3) ++
          List.replicate (2 * k) (true, w (1 / (4 * k : K)) 1)) := by
      intro w
      rw [hmv, List.mapIdx_append, List.mapIdx_append]
      congr 1
      · exact mapIdx_replicate fun i hi => by simp [hi]
      · congr 1
        · refine mapIdx_replicate fun i hi => ?_
          have : i + k < 2 * k := by omega
          simp [this]
        · refine mapIdx_replicate fun i hi => ?_
          have : ¬ i + k + k < 2 * k := by omega
          simp [this]
    have htot : totalWeight (fun i => if i < k then 1 else if i < 2 * k then 3 else 1) moved = (3 / 2 : K) := by
      rw [totalWeight_eq, key (fun a b => a * b)]
      simp only [List.map_append, List.map_replicate, List.sum_append, List.sum_replicate, nsmul_eq_mul]
      push_cast
      field_simp
      norm_num
    have ht' : totalWeight (fun i => l (valueAt false moved i) / l (valueAt false (halves (K := K) k) i)) moved =
        (3 / 2 : K) := by
      rw [← htot]
      exact Finset.sum_congr rfl fun i _ => congrArg (moved[i].2 * ·) (hcg i i.2)
    obtain ⟨a', ps', e1, e2, e3⟩ := g5 (by rw [ht']; norm_num)
    refine ⟨a', ps', e1, e2, ?_⟩
    have e4 := reweighted_iff.1 (reweighted_congr hcg e3)
    rw [htot, key (fun a b => a * b / (3 / 2))] at e4
    rw [e4]
    unfold weightOf
    simp only [List.map_append, List.map_replicate, List.sum_append, List.sum_replicate, nsmul_eq_mul,
      if_true, Bool.false_eq_true, if_false]
    push_cast
    field_simp
    norm_num
  · rintro q ps' hq ⟨chosen, parents, moved, g2, g3, g4, g5⟩
    have hpe := parents_eq hk h0 h1 hv g2 g3
    have hmv : moved = parents := hmove q hq _ _ g4
    have hcg : ∀ i < moved.length, l (valueAt false moved i) / l (id (valueAt false parents i)) = 1 := by
      intro i _
      rw [hmv]
      refine div_self ?_
      show l (valueAt false parents i) ≠ 0
      cases valueAt false parents i
      · exact h0.ne'
      · rw [h1]; positivity
    have e4 := reweighted_iff.1 (reweighted_congr hcg g5)
    have key : ∀ w : K → K, moved.mapIdx (fun i a => (a.1, w a.2)) =
        List.replicate k (false, w (1 / (4 * k : K))) ++ (List.replicate k (true, w (1 / (4 * k : K))) ++
          List.replicate (2 * k) (true, w (1 / (4 * k : K)))) := by
      intro w
      rw [hmv, hpe, List.mapIdx_append, List.mapIdx_append]
      congr 1
      · exact mapIdx_replicate fun i hi => by simp
      · congr 1
        · exact mapIdx_replicate fun i hi => by simp
        · exact mapIdx_replicate fun i hi => by simp
    have htot : totalWeight (fun _ => (1 : K)) moved = 1 := by
      rw [totalWeight_eq, key (fun a => a * 1)]
      simp only [List.map_append, List.map_replicate, List.sum_append, List.sum_replicate, nsmul_eq_mul]
      push_cast
      field_simp
      norm_num
    rw [htot, key (fun a => a * 1 / 1)] at e4
    rw [e4]
    unfold weightOf
    simp only [List.map_append, List.map_replicate, List.sum_append, List.sum_replicate, nsmul_eq_mul,
      if_true, Bool.false_eq_true, if_false]
    push_cast
    field_simp
    norm_num

end ancestors

/-! ## Other calls -/

section calls

variable {R SV MV K : Type} [Field K] [LinearOrder K] [IsStrictOrderedRing K] {dflt : SV}
  {root : Nat → K → K}

/-- **C109, predictions.** An update with a system model alone is undefined: the likelihood of the
look-aheads is taken from a NULL measurement model. -/
theorem C109_prediction {noise : Noise R K} {aux : AuxSystem R SV K} {T : SV → SV → SV → K}
    {look : SV → SV → SV} (ha : IsAuxSystem aux T look) {c : AuxCall R SV MV K} (hs : c.sys = some aux)
    (hm : c.meas = none) {a : AsirFilter R SV K} (hr : AuxReached MV dflt root a) :
    a.update dflt root noise c = .ub := by
  obtain ⟨q, hq, _, hlook⟩ := lookAhead_eq ha
  obtain ⟨ps, h1, _, _, _, _, h6, _⟩ := hr.inv.1
  simp only [AsirFilter.update, AsirFilter.sysPart, hs, hm, AsirFilter.sysSteps, listGet, h1, hq]
  generalize a.mu.getD _ = mu
  cases ps with
  | nil => simp at h6
  | cons x ps =>
    cases mu with
    | nil => simp [AsirFilter.lookLoop, hlook]
    | cons m mu => simp [AsirFilter.lookLoop, hlook, AsirFilter.deref]

/-- **C109, two filters.** The room for the look-aheads is shared by all filters of a type and is made at
the first update in the process: an update of a filter with more particles than that is undefined. -/
theorem C109_larger {noise : Noise R K} {aux : AuxSystem R SV K} {T : SV → SV → SV → K}
    {look : SV → SV → SV} (ha : IsAuxSystem aux T look) {mm : Model SV MV K} {L : MV → SV → SV → K}
    (hL : IsLikelihood mm L) {c : AuxCall R SV MV K} (hs : c.sys = some aux) (hm : c.meas = some mm)
    {a : AsirFilter R SV K} (hr : AuxReached MV dflt root a) {mu : List SV} (hmu : a.mu = some mu)
    (hlen : mu.length < a.pf.postGet.numSamples) : a.update dflt root noise c = .ub := by
  obtain ⟨q, hq, _, hlook⟩ := lookAhead_eq ha
  obtain ⟨ps, h1, h2, _, _, _, h6, _⟩ := hr.inv.1
  have h3 : mu.length < ps.length := by simpa [numSamples, h1] using hlen
  have hl : ∀ x, 0 ≤ L c.z x c.s ∧ Cloud.likelihood mm c.z c.s x = .ok (L c.z x c.s) :=
    fun x => ⟨hL.nonneg _ _ _, hL.likelihood _ _ _⟩
  have := AsirFilter.lookLoop_short (q := some q) (a := aux) (u := c.u) (hlook c.u) hl ps mu h2 h3
  simp only [AsirFilter.update, AsirFilter.sysPart, hs, hm, AsirFilter.sysSteps, listGet, h1, hq, hmu,
    Option.getD_some, this, Outcome.ub_bind]

/-- **C109, the first update sets the room.** After an update there is room for as many look-aheads as
the first updated filter had particles, and it never changes. -/
theorem C109_room {noise : Noise R K} {c : AuxCall R SV MV K} {a a' : AsirFilter R SV K}
    (h : a.update dflt root noise c = .ok a') :
    ∃ mu, a'.mu = some mu ∧ mu.length = (a.mu.map List.length).getD a.pf.postGet.numSamples := by
  simp only [AsirFilter.update, Outcome.bind_eq_ok, Outcome.pure_eq, Outcome.ok.injEq, Prod.exists] at h
  obtain ⟨f, mu, h1, f', h2, rfl⟩ := h
  refine ⟨mu, rfl, ?_⟩
  have hloop : ∀ (l res : List (WSample K SV)) (mus left : List SV) (q : Option (Proposal R SV K))
      (aux : AuxSystem R SV K),
      AsirFilter.lookLoop q aux c.u c.meas c.z c.s l mus = .ok (res, left) → left.length = mus.length := by
    intro l
    induction l with
    | nil =>
      intro res mus left q aux h
      simp only [AsirFilter.lookLoop, Outcome.ok.injEq, Prod.mk.injEq] at h
      rw [h.2]
    | cons o os ih =>
      intro res mus left q aux h
      simp only [AsirFilter.lookLoop, Outcome.bind_eq_ok] at h
      obtain ⟨m, _, h⟩ := h
      cases mus with
      | nil => simp at h
      | cons m' mus =>
        simp only [Outcome.bind_eq_ok, Outcome.pure_eq, Outcome.ok.injEq, Prod.mk.injEq, Prod.exists] at h
        obtain ⟨_, _, _, _, _, _, _, _, _, left', hr, _, rfl⟩ := h
        simp [ih _ _ _ _ _ hr]
  have hlen : mu.length = (a.mu.getD (List.replicate a.pf.cloud.post.numSamples dflt)).length := by
    unfold AsirFilter.sysPart at h1
    split at h1
    · simp only [Outcome.ok.injEq, Prod.mk.injEq] at h1
      rw [← h1.2]
    · simp only [AsirFilter.sysSteps, Outcome.bind_eq_ok, Outcome.pure_eq, Outcome.ok.injEq,
        Prod.mk.injEq, Prod.exists] at h1
      obtain ⟨_, _, e1, _, _, _, _, _, _, _, _, _, _, rfl⟩ := h1
      exact hloop _ _ _ _ _ _ e1
  rw [hlen]
  cases a.mu <;> simp

/-- **C109, measurements alone.** An update with a measurement alone divides by the likelihoods of
whatever the last update of a filter of this type has left in the table of look-aheads. -/
theorem C109_measurement {noise : Noise R K} {mm : Model SV MV K} {L : MV → SV → SV → K}
    (hL : IsLikelihood mm L) {c : AuxCall R SV MV K} (hs : c.sys = none) (hm : c.meas = some mm)
    {a : AsirFilter R SV K} (hr : AuxReached MV dflt root a) {ps : List (SV × K)}
    (hp : Holds a.pf.postGet ps) (hn : Normalised ps) {mu : List SV} (hmu : a.mu = some mu)
    (hlen : ps.length ≤ mu.length)
    (hpos : 0 < totalWeight (fun i => L c.z (valueAt dflt ps i) c.s / L c.z (mu[i]?.getD dflt) c.s) ps) :
    ∃ a' ps', a.update dflt root noise c = .ok a' ∧ Holds a'.pf.postGet ps' ∧
      Reweighted (fun i => L c.z (valueAt dflt ps i) c.s / L c.z (mu[i]?.getD dflt) c.s) ps ps' := by
  have hlive := hr.inv.1.live hp hn
  have hlive' : Cloud.Live { a.pf.cloud with old := a.pf.cloud.post.listGet } ps :=
    ⟨hlive.samples, hlive.good, by simp [listGet, hlive.samples], hlive.new⟩
  obtain ⟨f2, ps', g1, g2, g3⟩ := measPart_live (dflt := dflt) hL hm
    (f := { a.pf with cloud := { a.pf.cloud with old := a.pf.cloud.post.listGet } }) hlive' hlen hpos
  refine ⟨⟨f2, some mu⟩, ps', ?_, g2, g3⟩
  simp only [AsirFilter.update, AsirFilter.sysPart, hs, hmu, Option.getD_some, Outcome.ok_bind, g1,
    Outcome.pure_eq]

/-- **C109, the first measurement.** If no filter of the type has been updated yet, an update with a
measurement alone multiplies the weights by the likelihoods, provided that the measurement is possible in
the state that a default-constructed value stands for. -/
theorem C109_first_measurement {noise : Noise R K} {mm : Model SV MV K} {L : MV → SV → SV → K}
    (hL : IsLikelihood mm L) {c : AuxCall R SV MV K} (hs : c.sys = none) (hm : c.meas = some mm)
    {a : AsirFilter R SV K} (hr : AuxReached MV dflt root a) {ps : List (SV × K)}
    (hp : Holds a.pf.postGet ps) (hn : Normalised ps) (hmu : a.mu = none) (hd : 0 < L c.z dflt c.s)
    (hpos : 0 < totalWeight (fun i => L c.z (valueAt dflt ps i) c.s) ps) :
    ∃ a' ps', a.update dflt root noise c = .ok a' ∧ Holds a'.pf.postGet ps' ∧
      Reweighted (fun i => L c.z (valueAt dflt ps i) c.s) ps ps' := by
  have hlive := hr.inv.1.live hp hn
  have hlen : a.pf.cloud.post.numSamples = ps.length := by simp [numSamples, hlive.samples]
  have hat : ∀ i : Nat, ((List.replicate ps.length dflt)[i]?).getD dflt = dflt := by
    intro i
    rw [List.getElem?_replicate]
    split <;> rfl
  have htot : totalWeight (fun i => L c.z (valueAt dflt ps i) c.s / L c.z dflt c.s) ps =
      totalWeight (fun i => L c.z (valueAt dflt ps i) c.s) ps / L c.z dflt c.s := by
    unfold totalWeight
    rw [Finset.sum_div]
    exact Finset.sum_congr rfl fun i _ => by ring
  obtain ⟨a', ps', g1, g2, g3⟩ := C109_measurement (noise := noise) hL hs hm
    (a := ⟨a.pf, some (List.replicate ps.length dflt)⟩) (hr.shared _) hp hn rfl (by simp)
    (by simp only [hat]; rw [htot]; exact div_pos hpos hd)
  simp only [hat] at g3
  refine ⟨a', ps', ?_, g2, (reweighted_const hd.ne').1 g3⟩
  rw [← g1]
  simp only [AsirFilter.update, hmu, hlen, Option.getD_none, Option.getD_some]

/-- **C109, the first measurement is lost.** Otherwise all weights become zero, however well the
measurement fits the particles. -/
theorem C109_first_measurement_lost {noise : Noise R K} {mm : Model SV MV K} {L : MV → SV → SV → K}
    (hL : IsLikelihood mm L) {c : AuxCall R SV MV K} (hs : c.sys = none) (hm : c.meas = some mm)
    {a : AsirFilter R SV K} (hr : AuxReached MV dflt root a) {ps : List (SV × K)}
    (hp : Holds a.pf.postGet ps) (hn : Normalised ps) (hmu : a.mu = none) (hd : L c.z dflt c.s = 0) :
    ∃ a', a.update dflt root noise c = .ok a' ∧ Holds a'.pf.postGet (ps.map fun x => (x.1, 0)) := by
  have hlive := hr.inv.1.live hp hn
  have hlen : a.pf.cloud.post.numSamples = ps.length := by simp [numSamples, hlive.samples]
  have hl : ∀ x, 0 ≤ L c.z x c.s ∧ Cloud.likelihood mm c.z c.s x = .ok (L c.z x c.s) :=
    fun x => ⟨hL.nonneg _ _ _, hL.likelihood _ _ _⟩
  have e1 := AsirFilter.weightLoop_eq (f := AsirFilter.auxFactor mm c.z c.s) ps
    (List.replicate ps.length dflt) (fun _ => 0) hlive.nonneg (fun _ => le_rfl) (by simp)
    (fun i hi => by
      rw [AsirFilter.auxFactor_eq hl]
      simp [hd])
  obtain ⟨p', e2, e3⟩ := hlive.rescale_zero (g := fun _ => 0) (by simp [totalWeight])
  refine ⟨⟨{ a.pf with cloud := ⟨p', ps.map wrap,
    (ps.mapIdx fun _ x => (x.1, x.2 * 0)).map wrap, a.pf.cloud.unweighted⟩ },
    some (List.replicate ps.length dflt)⟩, ?_, ?_⟩
  · simp only [AsirFilter.update, AsirFilter.sysPart, AsirFilter.measPart, AsirFilter.measSteps, hs, hm, hmu,
      hlen, Option.getD_none, Outcome.ok_bind, listGet, hlive.samples, e1, e2, Outcome.pure_eq]
  · unfold Holds
    simp only [ParticleFilter.postGet, listGet, e3]
    apply List.ext_getElem (by simp)
    intro i h1 h2
    simp [wrap]

end calls

end BFL.Props
