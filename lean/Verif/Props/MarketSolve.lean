import Verif.Model.MarketSolve
import Verif.Props.Reporting

set_option linter.unusedSectionVars false

/-!
# C124: results of a market belong together, and errors name what failed
-/

namespace Pyblp

open Classical

variable {J P X T Y M : Type}

theorem replaceBad_twice {ι : Type} (values last : ι → Fl) : replaceBad (replaceBad values last) last = replaceBad values last := by
  funext i
  unfold replaceBad
  by_cases h : FlFinite (values i)
  · simp only [if_pos h]
  · simp only [if_neg h, ite_self]

/-- A market in which nothing is solved for: the contraction gives the `delta` at which it starts. -/
def MarketOps.at (o : MarketOps J P X T Y M) : MarketOps J P X T Y M :=
  { o with computeDelta := fun x => ⟨(x, fun _ => false, true), [], false⟩ }

namespace Spec

/-- Results other than `delta` and about the contraction are the same. -/
def SameElse (a b : MarketSolution J P M) : Prop :=
  a.xiJacobian = b.xiJacobian ∧ a.micro = b.micro ∧ a.tildeCosts = b.tildeCosts ∧ a.omegaJacobian = b.omegaJacobian ∧ a.clippedCosts = b.clippedCosts

/-- Two markets differ only in computation that gives Jacobians. -/
structure SameButJacobians (a b : MarketOps J P X T Y M) : Prop where
  delta : a.computeDelta = b.computeDelta
  probabilities : a.probabilities = b.probabilities
  none : a.noTangents = b.noTangents
  micro : a.computeMicro = b.computeMicro
  eta : a.computeEta = b.computeEta
  prices : a.prices = b.prices

/-- Two markets differ at most in what their probabilities are at values that are not finite. -/
def SameAtFinite (a b : MarketOps J P X T Y M) : Prop :=
  ∀ delta : J → Fl, (∀ j, FlFinite (delta j)) → a.probabilities delta = b.probabilities delta

end Spec

/-- **C124.** Once values that are not finite were replaced in the problem's `delta`, everything else that was computed in a market belongs to
that `delta`: it is what would have been computed there. -/
theorem C124_delta {K : Type} (J : K → Type) (o : (t : K) → MarketOps (J t) P X T Y M) (f : MarketFlags) (initial last lastCosts : (Σ t, J t) → Fl) (t : K) :
    let solutions := fun t => solveMarket (o t) f (fun j => initial ⟨t, j⟩) (fun j => last ⟨t, j⟩) fun j => lastCosts ⟨t, j⟩
    let reported := problemDelta J solutions last
    Spec.SameElse (solutions t) (solveMarket (o t).at f (fun j => reported ⟨t, j⟩) (fun j => last ⟨t, j⟩) fun j => lastCosts ⟨t, j⟩) := by
  intro solutions reported
  have h : replaceBad (fun j => reported ⟨t, j⟩) (fun j => last ⟨t, j⟩) =
      replaceBad ((o t).computeDelta fun j => initial ⟨t, j⟩).value.1 fun j => last ⟨t, j⟩ :=
    replaceBad_twice _ fun j => last ⟨t, j⟩
  have hrest : ∀ valid : J t → Fl, solveRest (o t) f (fun j => lastCosts ⟨t, j⟩) valid = solveRest (o t).at f (fun j => lastCosts ⟨t, j⟩) valid :=
    fun _ => rfl
  refine ⟨?_, ?_, ?_, ?_, ?_⟩ <;>
  · show _ = _
    simp only [solutions, solveMarket, safelyComputeDelta, MarketOps.at] at h ⊢
    rw [h]
    rfl

/-- **C124.** If last values of `delta` are finite, probabilities are only computed at finite values. -/
theorem C124_finite (o : MarketOps J P X T Y M) (probabilities : (J → Fl) → X × Bool) (f : MarketFlags) (initial last lastCosts : J → Fl)
    (hlast : ∀ j, FlFinite (last j)) (h : Spec.SameAtFinite o { o with probabilities := probabilities }) :
    solveMarket o f initial last lastCosts = solveMarket { o with probabilities := probabilities } f initial last lastCosts := by
  have hv : ∀ values : J → Fl, ∀ j, FlFinite (replaceBad values last j) := by
    intro values j
    unfold replaceBad
    split
    · assumption
    · exact hlast j
  have hp := h _ (hv (o.computeDelta initial).value.1)
  simp only at hp
  have hr : solveRest o f lastCosts (replaceBad (o.computeDelta initial).value.1 last) =
      solveRest { o with probabilities := probabilities } f lastCosts (replaceBad (o.computeDelta initial).value.1 last) := by
    unfold solveRest
    simp only [hp]
    rfl
  unfold solveMarket
  simp only [safelyComputeDelta, hr]

/-- **C124.** Without Jacobians, nothing that only they need matters. -/
theorem C124_no_jacobians (a b : MarketOps J P X T Y M) (f : MarketFlags) (hf : f.jacobians = false) (h : Spec.SameButJacobians a b)
    (initial last lastCosts : J → Fl) : solveMarket a f initial last lastCosts = solveMarket b f initial last lastCosts := by
  obtain ⟨h1, h2, h3, h4, h5, h6⟩ := h
  unfold solveMarket solveRest solveSupply safelyComputeTildeCosts safelyComputeDelta
  simp only [hf, h1, h2, h3, h4, h5, h6, Bool.false_eq_true, if_false, false_and, false_or]

/-- **C124.** Without Jacobians, micro moments and a supply side, only the contraction is done. -/
theorem C124_only_delta (a b : MarketOps J P X T Y M) (f : MarketFlags) (h1 : f.jacobians = false) (h2 : f.hasMicro = false)
    (h3 : f.hasSupply = false) (hd : a.computeDelta = b.computeDelta) (initial last lastCosts : J → Fl) :
    solveMarket a f initial last lastCosts = solveMarket b f initial last lastCosts := by
  unfold solveMarket solveRest safelyComputeDelta
  simp only [h1, h2, h3, hd, Bool.false_eq_true, or_self, if_false]

/-! ## Supply -/

namespace Spec

/-- A cost is outside of bounds; NaN is not. -/
def Outside (bounds : EReal × EReal) (c : Fl) : Prop := ∃ x, c = some x ∧ ¬ (bounds.1 ≤ x ∧ x ≤ bounds.2)

/-- A cost after clipping: unchanged within bounds, and otherwise the bound that is crossed. -/
def Clipped (bounds : EReal × EReal) (c c' : Fl) : Prop :=
  (¬ Outside bounds c ∧ c' = c) ∨ ∃ x, c = some x ∧ ((x < bounds.1 ∧ c' = some bounds.1) ∨ (bounds.2 < x ∧ c' = some bounds.2))

/-- A transformed cost: the cost or its logarithm, which is finite only for finite positive ones. -/
def Transformed (log : Bool) (c y : Fl) : Prop :=
  if log then (∀ r : ℝ, 0 < r → c = some (r : EReal) → y = some ((Real.log r : ℝ) : EReal)) ∧ ((∀ r : ℝ, 0 < r → c ≠ some (r : EReal)) → ¬ FlFinite y)
  else y = c

end Spec

theorem outside_iff (bounds : EReal × EReal) (c : Fl) : outsideBounds bounds c ↔ Spec.Outside bounds c := by
  unfold outsideBounds Spec.Outside
  cases c with
  | none => simp
  | some c =>
    simp only [Option.some.injEq, exists_eq_left', not_and_or, not_le]

theorem clip_iff (bounds : EReal × EReal) (hb : bounds.1 ≤ bounds.2) (c c' : Fl) : c' = clipCost bounds c ↔ Spec.Clipped bounds c c' := by
  unfold clipCost Spec.Clipped Spec.Outside
  cases c with
  | none => simp
  | some c =>
    simp only [Option.some.injEq, exists_eq_left', not_and_or, not_le]
    by_cases h1 : c < bounds.1
    · rw [max_eq_right h1.le, min_eq_left hb]
      have : ¬ bounds.2 < c := not_lt.mpr (h1.le.trans hb)
      simp [h1, this]
    · by_cases h2 : bounds.2 < c
      · rw [max_eq_left (not_lt.mp h1), min_eq_right h2.le]
        simp [h1, h2]
      · rw [max_eq_left (not_lt.mp h1), min_eq_left (not_lt.mp h2)]
        simp [h1, h2]

theorem transformed (c : Fl) : Spec.Transformed true c (flLog c) := by
  unfold Spec.Transformed
  rw [if_pos rfl]
  constructor
  · rintro r hr rfl
    have h1 : ¬ ((r : EReal) < 0) := not_lt.mpr (by exact_mod_cast hr.le)
    have h2 : ¬ ((r : EReal) = 0) := by
      intro h
      exact hr.ne' (by exact_mod_cast h)
    have h3 : ¬ ((r : EReal) = ⊤) := EReal.coe_ne_top r
    simp only [flLog, if_neg h1, if_neg h2, if_neg h3, EReal.toReal_coe]
  · rintro h ⟨r, hr⟩
    cases c with
    | none => cases hr
    | some c =>
      simp only [flLog] at hr
      split at hr
      · cases hr
      · rename_i h1
        split at hr
        · simp at hr
        · rename_i h2
          split at hr
          · simp at hr
          · rename_i h3
            have hpos : 0 < c := lt_of_le_of_ne (not_lt.mp h1) (Ne.symm h2)
            induction c using EReal.rec with
            | bot => exact absurd hpos (by simp)
            | top => exact h3 rfl
            | coe c => exact h c (by exact_mod_cast hpos) rfl

/-- The costs that are transformed: prices minus markups, clipped. -/
theorem supply_costs (o : MarketOps J P X T Y M) (f : MarketFlags) (hb : f.costsBounds.1 ≤ f.costsBounds.2) (x : X) :
    ∃ c : J → Fl, (∀ j, Spec.Clipped f.costsBounds (((o.computeEta x f.jacobians).value.1 j).map fun e => (o.prices j : EReal) - e) (c j)) ∧
      (∀ j, Spec.Transformed f.logCosts (c j) ((safelyComputeTildeCosts o f x).1.1 j)) ∧
      (∀ j, (safelyComputeTildeCosts o f x).1.2.1 j = true ↔
        Spec.Outside f.costsBounds (((o.computeEta x f.jacobians).value.1 j).map fun e => (o.prices j : EReal) - e)) ∧
      (SolveError.nonpositiveCosts ∈ (safelyComputeTildeCosts o f x).2 ↔ f.logCosts = true ∧ ∃ j a, c j = some a ∧ a ≤ 0) := by
  set costs : J → Fl := fun j => ((o.computeEta x f.jacobians).value.1 j).map fun e => (o.prices j : EReal) - e with hcosts
  set c : J → Fl := if ∃ j, decide (outsideBounds f.costsBounds (costs j)) = true then fun j => clipCost f.costsBounds (costs j) else costs with hc
  refine ⟨c, fun j => ?_, fun j => ?_, fun j => ?_, ?_⟩
  · rw [hc]
    split
    · exact (clip_iff _ hb _ _).mp rfl
    · rename_i hn
      refine .inl ⟨fun ho => hn ⟨j, ?_⟩, rfl⟩
      rw [decide_eq_true_eq, outside_iff]
      exact ho
  · show Spec.Transformed f.logCosts (c j) ((if f.logCosts then fun j => flLog (c j) else c) j)
    cases f.logCosts with
    | false => simp [Spec.Transformed]
    | true => exact transformed (c j)
  · show decide (outsideBounds f.costsBounds (costs j)) = true ↔ _
    rw [decide_eq_true_eq, outside_iff]
  · show SolveError.nonpositiveCosts ∈ handled .costs ((o.computeEta x f.jacobians).replaced.map .replaced ++
      if f.logCosts ∧ (∃ j a, c j = some a ∧ a ≤ 0) then [.nonpositiveCosts] else []) (o.computeEta x f.jacobians).problem ↔ _
    unfold handled
    by_cases hn : f.logCosts ∧ (∃ j a, c j = some a ∧ a ≤ 0)
    · rw [if_pos hn]
      split <;> simp [hn.1, hn.2]
    · rw [if_neg hn]
      split <;> simpa using hn

/-- **C124.** Marginal costs: prices minus markups, clipped and then transformed. Products whose costs were clipped are reported and have zero
derivatives; other derivatives are those at the problem's reported costs. -/
theorem C124_costs (o : MarketOps J P X T Y M) (f : MarketFlags) (hs : f.hasSupply = true) (hb : f.costsBounds.1 ≤ f.costsBounds.2)
    (initial last lastCosts : J → Fl) :
    let r := solveMarket o f initial last lastCosts
    let x := (o.probabilities (replaceBad r.delta last)).1
    let unclipped := fun j => ((o.computeEta x f.jacobians).value.1 j).map fun e => (o.prices j : EReal) - e
    ∃ c y : J → Fl, (∀ j, Spec.Clipped f.costsBounds (unclipped j) (c j)) ∧ (∀ j, Spec.Transformed f.logCosts (c j) (y j)) ∧
      r.tildeCosts = some y ∧ (∀ j, r.clippedCosts j = true ↔ Spec.Outside f.costsBounds (unclipped j)) ∧
      (SolveError.nonpositiveCosts ∈ r.errors ↔ f.logCosts = true ∧ ∃ j a, c j = some a ∧ a ≤ 0) ∧
      (f.jacobians = true →
        let t := (o.tangents x (replaceBad r.delta last) true).1
        let w := (o.computeOmegaJacobian (replaceBad y lastCosts) (o.computeEta x true).value.1 (o.computeEta x true).value.2 x
          (o.updateTangents t x r.xiJacobian).1).value
        r.xiJacobian = (o.computeXiJacobian x t).value ∧ ∀ j p, r.omegaJacobian j p = if r.clippedCosts j then some 0 else w j p) := by
  intro r x unclipped
  obtain ⟨c, h1, h2, h3, h4⟩ := supply_costs o f hb x
  refine ⟨c, (safelyComputeTildeCosts o f x).1.1, h1, h2, ?_, ?_, ?_, ?_⟩
  · simp only [r, solveMarket, solveRest, hs, or_true, if_true, solveSupply, safelyComputeDelta, x]
    split <;> rfl
  · intro j
    rw [← h3 j]
    simp only [r, solveMarket, solveRest, hs, or_true, if_true, solveSupply, safelyComputeDelta, x]
    split <;> rfl
  · rw [← h4]
    have hmem : ∀ (l : List SolveError) (b : Bool), SolveError.nonpositiveCosts ∈ handled .generic l b ↔ SolveError.nonpositiveCosts ∈ l := by
      intro l b
      cases b <;> simp [handled]
    have hx : ∀ (l : List ℕ) (b : Bool) (e : SolveError), e ≠ .nonpositiveCosts → SolveError.nonpositiveCosts ∉ handled e (l.map .replaced) b := by
      intro l b e he
      cases b <;> simp [handled, Ne.symm he]
    have hd : ∀ initial, SolveError.nonpositiveCosts ∉ (safelyComputeDelta o initial).2 := by
      intro initial
      simp only [safelyComputeDelta, handled]
      split <;> split <;> simp
    simp only [r, solveMarket, hmem, List.mem_append, hd, false_or]
    simp only [solveRest, hs, or_true, if_true, List.mem_append]
    rw [or_iff_right]
    · simp only [solveSupply, x, r, solveMarket]
      split
      · simp only [List.mem_append]
        rw [or_iff_left (hx _ _ _ (by simp))]
      · rfl
    · rintro (h | h)
      · exact hx _ _ _ (by simp) h
      · cases hm : f.hasMicro with
        | false => simp [hm] at h
        | true =>
          simp only [hm, if_true] at h
          exact hx _ _ _ (by simp) h
  · intro hj t w
    have e : (safelyComputeTildeCosts o f x).1.2.2 = (o.computeEta x true).value := by
      simp [safelyComputeTildeCosts, hj]
    have e1 : (safelyComputeTildeCosts o f x).1.2.2.1 = (o.computeEta x true).value.1 := by rw [e]
    have e2 : (safelyComputeTildeCosts o f x).1.2.2.2 = (o.computeEta x true).value.2 := by rw [e]
    have hx : r.xiJacobian = (o.computeXiJacobian x t).value := by
      simp only [r, solveMarket, solveRest, hs, hj, or_true, if_true, solveSupply, safelyComputeDelta, x, t]
    refine ⟨hx, fun j p => ?_⟩
    simp only [w, hx]
    rw [← e1, ← e2]
    simp only [r, solveMarket, solveRest, hs, hj, or_true, and_self, if_true, solveSupply, safelyComputeDelta, x, t]

/-- **C124.** Once values that are not finite were replaced in the problem's costs, derivatives of costs that were not clipped are those at the problem's
`delta` and costs. -/
theorem C124_problem_costs {K : Type} (J : K → Type) (o : (t : K) → MarketOps (J t) P X T Y M) (f : MarketFlags) (hs : f.hasSupply = true)
    (hj : f.jacobians = true) (initial last lastCosts : (Σ t, J t) → Fl) (t : K) :
    let solutions := fun t => solveMarket (o t) f (fun j => initial ⟨t, j⟩) (fun j => last ⟨t, j⟩) fun j => lastCosts ⟨t, j⟩
    let delta := fun j => problemDelta J solutions last ⟨t, j⟩
    let costs := fun j => problemCosts J solutions lastCosts ⟨t, j⟩
    let x := ((o t).probabilities delta).1
    let w := ((o t).computeOmegaJacobian costs ((o t).computeEta x true).value.1 ((o t).computeEta x true).value.2 x
      ((o t).updateTangents ((o t).tangents x delta true).1 x (solutions t).xiJacobian).1).value
    ∀ j p, (solutions t).clippedCosts j = false → (solutions t).omegaJacobian j p = w j p := by
  intro solutions delta costs x w j p hc
  have e : (safelyComputeTildeCosts (o t) f x).1.2.2 = ((o t).computeEta x true).value := by
    simp [safelyComputeTildeCosts, hj]
  have e1 : (safelyComputeTildeCosts (o t) f x).1.2.2.1 = ((o t).computeEta x true).value.1 := by rw [e]
  have e2 : (safelyComputeTildeCosts (o t) f x).1.2.2.2 = ((o t).computeEta x true).value.2 := by rw [e]
  have hy : (solutions t).tildeCosts = some (safelyComputeTildeCosts (o t) f x).1.1 := by
    simp only [solutions, solveMarket, solveRest, hs, hj, or_true, if_true, solveSupply, x, delta]
    rfl
  have hcosts : costs = replaceBad (safelyComputeTildeCosts (o t) f x).1.1 fun j => lastCosts ⟨t, j⟩ := by
    funext j
    simp only [costs, problemCosts, replaceBad, hy]
  have hw : (solutions t).omegaJacobian j p = if (solutions t).clippedCosts j = true then some 0 else w j p := by
    simp only [w, hcosts]
    rw [← e1, ← e2]
    simp only [solutions, solveMarket, solveRest, hs, hj, or_true, and_self, if_true, solveSupply, x, delta]
    rfl
  rw [hw, if_neg (by rw [hc]; simp)]

/-! ## Errors -/

/-- **C124.** Errors name what failed: there is an error about the contraction exactly if it did not converge, one about `delta` exactly if there were
floating point problems in the contraction, one about Jacobians, micro moments or costs exactly if these were computed and there were
problems, and a generic one exactly if there were problems in the computation of probabilities or their tangents, which is only done if
something needs them. -/
theorem C124_errors (o : MarketOps J P X T Y M) (f : MarketFlags) (initial last lastCosts : J → Fl) :
    let r := solveMarket o f initial last lastCosts
    let delta := replaceBad r.delta last
    let x := o.probabilities delta
    let t := if f.jacobians then o.tangents x.1 delta f.hasSupply else (o.noTangents, false)
    let adjusted := if f.jacobians ∧ (f.hasMicro ∨ f.hasSupply) then o.updateTangents t.1 x.1 r.xiJacobian else (t.1, false)
    (.convergence ∈ r.errors ↔ r.converged = false) ∧
      (.delta ∈ r.errors ↔ (o.computeDelta initial).problem = true) ∧
      (.xiJacobian ∈ r.errors ↔ f.jacobians = true ∧ (o.computeXiJacobian x.1 t.1).problem = true) ∧
      (.micro ∈ r.errors ↔
        f.hasMicro = true ∧ (o.computeMicro delta x.1 adjusted.1 r.xiJacobian f.jacobians f.microCovariances).problem = true) ∧
      (.costs ∈ r.errors ↔ f.hasSupply = true ∧ (o.computeEta x.1 f.jacobians).problem = true) ∧
      (.generic ∈ r.errors ↔ (f.jacobians = true ∨ f.hasMicro = true ∨ f.hasSupply = true) ∧ (x.2 = true ∨ t.2 = true ∨ adjusted.2 = true)) := by
  obtain ⟨jacobians, microCovariances, hasMicro, hasSupply, logCosts, bounds⟩ := f
  have hd : (safelyComputeDelta o initial).1 = (o.computeDelta initial).value := rfl
  have hsup : ∀ (lastCosts : J → Fl) (x : X) (t : T) (e : SolveError), e ≠ .nonpositiveCosts → e ≠ .omegaJacobian → (∀ n, e ≠ .replaced n) →
      (e ∈ (solveSupply o ⟨jacobians, microCovariances, hasMicro, hasSupply, logCosts, bounds⟩ lastCosts x t).2.2.2 ↔
        e = .costs ∧ (o.computeEta x jacobians).problem = true) := by
    intro lastCosts x t e h1 h2 h3
    have h3' : ∀ l : List ℕ, e ∉ l.map SolveError.replaced := by
      intro l hl
      obtain ⟨n, _, hn⟩ := List.mem_map.mp hl
      exact h3 n hn.symm
    have hc : e ∈ (safelyComputeTildeCosts o ⟨jacobians, microCovariances, hasMicro, hasSupply, logCosts, bounds⟩ x).2 ↔
        e = .costs ∧ (o.computeEta x jacobians).problem = true := by
      simp only [safelyComputeTildeCosts, handled]
      split
      · rename_i hp
        split <;> simp [h1, h3', hp]
      · rename_i hp
        split <;> simp [h1, h3', hp]
    simp only [solveSupply]
    cases jacobians with
    | false =>
      simp only [Bool.false_eq_true, if_false]
      exact hc
    | true =>
      simp only [if_true, List.mem_append, hc, handled]
      split <;> simp [h2, h3']
  have hrep : ∀ (cls e : SolveError) (l : List ℕ) (b : Bool), (∀ n, e ≠ .replaced n) →
      (e ∈ handled cls (l.map .replaced) b ↔ e = cls ∧ b = true) := by
    intro cls e l b h3
    have h3' : e ∉ l.map SolveError.replaced := by
      intro hl
      obtain ⟨n, _, hn⟩ := List.mem_map.mp hl
      exact h3 n hn.symm
    cases b <;> simp [handled, h3']
  have hdel : ∀ e : SolveError, (∀ n, e ≠ .replaced n) → (e ∈ (safelyComputeDelta o initial).2 ↔
      (e = .delta ∧ (o.computeDelta initial).problem = true) ∨ (e = .convergence ∧ (o.computeDelta initial).value.2.2 = false)) := by
    intro e h3
    have h3' : ∀ l : List ℕ, e ∉ l.map SolveError.replaced := by
      intro l hl
      obtain ⟨n, _, hn⟩ := List.mem_map.mp hl
      exact h3 n hn.symm
    simp only [safelyComputeDelta, handled]
    cases (o.computeDelta initial).problem <;> cases (o.computeDelta initial).value.2.2 <;> simp [h3', or_comm]
  have hgen : ∀ (e : SolveError) (l : List SolveError) (b : Bool), e ∈ handled .generic l b ↔ e ∈ l ∨ (e = .generic ∧ b = true) := by
    intro e l b
    cases b <;> simp [handled]
  have hnil : ∀ cls, handled cls [] false = [] := fun _ => rfl
  intro r delta x t adjusted
  have hr : r.delta = (o.computeDelta initial).value.1 := rfl
  have hx : r.xiJacobian = (if jacobians then o.computeXiJacobian x.1 t.1 else ⟨fun _ _ => none, [], false⟩).value := by
    simp only [r, solveMarket, solveRest, hd, t, x, delta]
    cases jacobians <;> cases hasMicro <;> cases hasSupply <;> simp
  have herr : ∀ e : SolveError, (∀ n, e ≠ .replaced n) → e ≠ .nonpositiveCosts → e ≠ .omegaJacobian → (e ∈ r.errors ↔
      ((e = .delta ∧ (o.computeDelta initial).problem = true) ∨ (e = .convergence ∧ (o.computeDelta initial).value.2.2 = false)) ∨
      (e = .xiJacobian ∧ jacobians = true ∧ (o.computeXiJacobian x.1 t.1).problem = true) ∨
      (e = .micro ∧ hasMicro = true ∧ (o.computeMicro delta x.1 adjusted.1 r.xiJacobian jacobians microCovariances).problem = true) ∨
      (e = .costs ∧ hasSupply = true ∧ (o.computeEta x.1 jacobians).problem = true) ∨
      (e = .generic ∧ (jacobians = true ∨ hasMicro = true ∨ hasSupply = true) ∧ (x.2 = true ∨ t.2 = true ∨ adjusted.2 = true))) := by
    intro e h1 h2 h3
    show e ∈ handled .generic _ _ ↔ _
    rw [hgen, List.mem_append, hdel e h1]
    simp only [adjusted, hx]
    simp only [hd, solveRest, t, x, delta, hr]
    cases jacobians <;> cases hasMicro <;> cases hasSupply <;>
      simp [hrep, h1, hsup _ _ _ e h2 h3 h1, or_assoc, hnil]
  refine ⟨?_, ?_, ?_, ?_, ?_, ?_⟩
  · rw [herr _ (by simp) (by simp) (by simp)]
    simp
    rfl
  · rw [herr _ (by simp) (by simp) (by simp)]
    simp
  · rw [herr _ (by simp) (by simp) (by simp)]
    simp
  · rw [herr _ (by simp) (by simp) (by simp)]
    simp
  · rw [herr _ (by simp) (by simp) (by simp)]
    simp
  · rw [herr _ (by simp) (by simp) (by simp)]
    simp

/-- **C124.** There is an error about derivatives of costs exactly if these were computed and there were floating point problems. -/
theorem C124_omega_error (o : MarketOps J P X T Y M) (f : MarketFlags) (initial last lastCosts y : J → Fl)
    (hy : f.hasSupply = true → (solveMarket o f initial last lastCosts).tildeCosts = some y) :
    let r := solveMarket o f initial last lastCosts
    let delta := replaceBad r.delta last
    let x := (o.probabilities delta).1
    .omegaJacobian ∈ r.errors ↔ f.hasSupply = true ∧ f.jacobians = true ∧
      (o.computeOmegaJacobian (replaceBad y lastCosts) (o.computeEta x true).value.1 (o.computeEta x true).value.2 x
        (o.updateTangents (o.tangents x delta true).1 x r.xiJacobian).1).problem = true := by
  obtain ⟨jacobians, microCovariances, hasMicro, hasSupply, logCosts, bounds⟩ := f
  intro r delta x
  have hrep : ∀ (cls : SolveError) (l : List ℕ) (b : Bool), cls ≠ .omegaJacobian → SolveError.omegaJacobian ∉ handled cls (l.map .replaced) b := by
    intro cls l b h
    cases b <;> simp [handled, Ne.symm h]
  have hgen : ∀ (l : List SolveError) (b : Bool), SolveError.omegaJacobian ∈ handled .generic l b ↔ SolveError.omegaJacobian ∈ l := by
    intro l b
    cases b <;> simp [handled]
  have hdel : SolveError.omegaJacobian ∉ (safelyComputeDelta o initial).2 := by
    simp only [safelyComputeDelta, handled]
    split <;> split <;> simp
  have hcost : ∀ f x, SolveError.omegaJacobian ∉ (safelyComputeTildeCosts o f x).2 := by
    intro f x
    simp only [safelyComputeTildeCosts, handled]
    split <;> split <;> simp
  have hom : ∀ (l : List ℕ) (b : Bool), SolveError.omegaJacobian ∈ handled .omegaJacobian (l.map .replaced) b ↔ b = true := by
    intro l b
    cases b <;> simp [handled]
  have hnil : ∀ cls, handled cls [] false = [] := fun _ => rfl
  have hmic : ∀ (m : Computed M), SolveError.omegaJacobian ∉ handled .micro (m.replaced.map .replaced) m.problem := fun m =>
    hrep _ _ _ (by simp)
  have hxi : ∀ (m : Computed (J → P → Fl)), SolveError.omegaJacobian ∉ handled .xiJacobian (m.replaced.map .replaced) m.problem := fun m =>
    hrep _ _ _ (by simp)
  show SolveError.omegaJacobian ∈ handled .generic _ _ ↔ _
  rw [hgen, List.mem_append, or_iff_right hdel]
  cases hasSupply with
  | false =>
    simp only [solveRest, Bool.false_eq_true, or_false, if_false, false_and, iff_false]
    split
    · simp only [List.mem_append, not_or]
      refine ⟨hxi _, ?_⟩
      cases hasMicro with
      | false => simp
      | true => exact hmic _
    · simp
  | true =>
    have hy' := hy rfl
    cases jacobians with
    | false =>
      simp only [solveRest, Bool.false_eq_true, or_true, if_true, if_false, false_and, and_false, iff_false, List.mem_append, not_or, solveSupply]
      refine ⟨⟨hxi ⟨fun _ _ => none, [], false⟩, ?_⟩, hcost _ _⟩
      cases hasMicro with
      | false => simp
      | true => exact hmic _
    | true =>
      have e : (safelyComputeTildeCosts o ⟨true, microCovariances, hasMicro, true, logCosts, bounds⟩ x).1.1 = y := by
        have := hy'
        simp only [solveMarket, solveRest, or_true, if_true, solveSupply, Option.some.injEq] at this
        exact this
      rw [← e]
      simp only [solveRest, or_true, if_true, and_self, List.mem_append, solveSupply, true_and]
      rw [or_iff_right, or_iff_right (hcost _ _), hom]
      · simp only [r, solveMarket, solveRest, or_true, if_true, solveSupply, x, delta]
        rfl
      · rintro (h | h)
        · exact hxi _ h
        · cases hasMicro with
          | false => simp at h
          | true => exact hmic _ h

/-! ## Generic errors before NumPy 2.0 -/

namespace Spec

/-- Classes of errors of nested computations. -/
def classes : FpProgram → List String
  | .done => []
  | .problem _ rest => classes rest
  | .call cls body rest => cls :: (classes body ++ classes rest)

end Spec

theorem old_body (prog : FpProgram) (s : FpState) (h : ℕ) (hh : s.handler = some h) (h0 : h ≠ 0) (hl : 0 < s.detectors.length) :
    (∃ h', (runBody false prog s).2.handler = some h' ∧ h' ≠ 0) ∧ s.detectors.length ≤ (runBody false prog s).2.detectors.length ∧
      (runBody false prog s).2.detectors.getD 0 ∅ = s.detectors.getD 0 ∅ ∧ ∀ e ∈ (runBody false prog s).1, e.1 ∈ Spec.classes prog := by
  induction prog generalizing s h with
  | done =>
    simp only [runBody]
    exact ⟨⟨h, hh, h0⟩, le_refl _, trivial, by simp⟩
  | problem p rest ih =>
    simp only [runBody, Spec.classes]
    by_cases hp : p = .under
    · simp only [if_pos hp]
      exact ih s h hh h0 hl
    · simp only [if_neg hp]
      have hs : (s.detect p).handler = some h ∧ (s.detect p).detectors = s.detectors.modify h (insert p) := by
        unfold FpState.detect
        simp [hh]
      obtain ⟨h1, h2, h3, h4⟩ := ih (s.detect p) h hs.1 h0 (by rw [hs.2, List.length_modify]; exact hl)
      refine ⟨h1, ?_, ?_, h4⟩
      · rw [hs.2, List.length_modify] at h2
        exact h2
      · rw [h3, hs.2, getD_modify _ _ _ _ hl, if_neg h0]
  | call cls body rest ihb ihr =>
    simp only [runBody, runDecorated, Spec.classes, Bool.false_eq_true, if_false]
    obtain ⟨⟨k, h1, h1'⟩, h2, h3, h4⟩ := ihb ⟨some s.detectors.length, s.detectors ++ [∅]⟩ s.detectors.length rfl (by omega) (by simp)
    obtain ⟨r1, r2, r3, r4⟩ := ihr _ k h1 h1' (lt_of_lt_of_le (by simp) h2)
    simp only [List.length_append, List.length_cons, List.length_nil] at h2
    refine ⟨r1, le_trans (by omega) r2, ?_, ?_⟩
    · rw [r3, h3, List.getD_append _ _ _ _ hl]
    · intro e he
      rcases List.mem_append.mp he with he | he
      · split at he
        · exact List.mem_cons_of_mem _ (List.mem_append_left _ (h4 e he))
        · rcases List.mem_append.mp he with he | he
          · exact List.mem_cons_of_mem _ (List.mem_append_left _ (h4 e he))
          · rw [List.mem_singleton.mp he]
            exact List.mem_cons_self
      · exact List.mem_cons_of_mem _ (List.mem_append_right _ (r4 e he))

/-- **C124, finding.** Before NumPy 2.0, which the package accepts (`numpy>=1.17.0`), an error of a computation itself is never reported if
the computation begins with one that is also decorated, whatever happens after that. The market-level `solve` begins with the contraction, so that
floating point problems in the computation of probabilities and tangents never give a generic error. -/
theorem C124_old_numpy_refuted (cls inner : String) (body rest : FpProgram) (h : cls ∉ Spec.classes (.call inner body rest)) :
    ∀ e ∈ reportOf false cls (.call inner body rest), e.1 ≠ cls := by
  have hb := old_body body ⟨some 1, [∅] ++ [∅]⟩ 1 rfl (by omega) (by simp)
  obtain ⟨⟨k, h1, h1'⟩, h2, h3, h4⟩ := hb
  obtain ⟨r1, r2, r3, r4⟩ := old_body rest ⟨(runBody false body ⟨some 1, [∅] ++ [∅]⟩).2.handler, (runBody false body ⟨some 1, [∅] ++ [∅]⟩).2.detectors⟩
    k h1 h1' (lt_of_lt_of_le (by simp) h2)
  have hempty : (runBody false rest (runBody false body ⟨some 1, [∅] ++ [∅]⟩).2).2.detectors.getD 0 ∅ = ∅ := by
    rw [r3]
    exact h3
  intro e he hcls
  unfold reportOf at he
  simp only [runDecorated, runBody, List.length_nil, List.nil_append, Bool.false_eq_true, if_false, List.length_cons, zero_add] at he
  rw [if_pos hempty] at he
  obtain ⟨e', he', rfl⟩ := List.mem_map.mp he
  simp only at hcls
  apply h
  rw [← hcls]
  simp only [Spec.classes]
  rcases List.mem_append.mp he' with he' | he'
  · split at he'
    · exact List.mem_cons_of_mem _ (List.mem_append_left _ (h4 e' he'))
    · rcases List.mem_append.mp he' with he' | he'
      · exact List.mem_cons_of_mem _ (List.mem_append_left _ (h4 e' he'))
      · rw [List.mem_singleton.mp he']
        exact List.mem_cons_self
  · exact List.mem_cons_of_mem _ (List.mem_append_right _ (r4 e' he'))

/-- The market-level `solve` with an overflow in probabilities: no error before NumPy 2.0, and an error since. -/
example : (∀ e ∈ reportOf false "GenericNumericalError" (.call "DeltaNumericalError" .done (.problem .over (.call "CostsNumericalError" .done .done))),
      e.1 ≠ "GenericNumericalError") ∧
    ("GenericNumericalError", {FpProblem.over}) ∈
      reportOf true "GenericNumericalError" (.call "DeltaNumericalError" .done (.problem .over (.call "CostsNumericalError" .done .done))) := by
  constructor
  · apply C124_old_numpy_refuted
    decide
  · rw [C71_reported]
    decide

/-! ## A market in which the contraction failed and a cost is clipped -/

/-- Two products: the contraction gives NaN for the first, "probabilities" are the utilities they were computed with, costs are prices and Jacobians
are one. -/
noncomputable def exampleOps : MarketOps (Fin 2) Unit (Fin 2 → Fl) Unit Unit (Fin 2 → Fl) where
  computeDelta := fun _ => ⟨(![none, some 1], fun _ => false, false), [], true⟩
  probabilities := fun d => (d, false)
  noTangents := ()
  tangents := fun _ _ _ => ((), true)
  computeXiJacobian := fun _ _ => ⟨fun _ _ => some 1, [7], false⟩
  updateTangents := fun t _ _ => (t, false)
  computeMicro := fun _ x _ _ _ _ => ⟨x, [], false⟩
  computeEta := fun _ _ => ⟨(fun _ => some 0, ()), [], false⟩
  computeOmegaJacobian := fun _ _ _ _ _ => ⟨fun _ _ => some 1, [], true⟩
  prices := ![1, 10]

/-- Jacobians, micro moments and a supply side with logs of costs, which are at most five. -/
noncomputable def exampleFlags : MarketFlags := ⟨true, false, true, true, true, (⊥, ((5 : ℝ) : EReal))⟩

/-- Micro moments are at the value that is reported for the first product instead of NaN. -/
example (initial lastCosts : Fin 2 → Fl) :
    (solveMarket exampleOps exampleFlags initial (fun _ => some 3) lastCosts).micro = some ![some 3, some 1] := by
  have h0 : ¬ FlFinite none := by rintro ⟨r, hr⟩; cases hr
  have h1 : FlFinite (some 1) := ⟨1, rfl⟩
  simp only [solveMarket, solveRest, safelyComputeDelta, exampleOps, exampleFlags, or_self, if_true, Option.map_some, Option.some.injEq]
  funext i
  fin_cases i
  · exact if_neg h0
  · exact if_pos h1

/-- The second cost is clipped, so that its Jacobian is zero. -/
example (initial last lastCosts : Fin 2 → Fl) : (solveMarket exampleOps exampleFlags initial last lastCosts).clippedCosts 1 = true ∧
    (solveMarket exampleOps exampleFlags initial last lastCosts).omegaJacobian 1 () = some 0 := by
  have h : (5 : EReal) < 10 := by
    have : ((5 : ℝ) : EReal) < ((10 : ℝ) : EReal) := EReal.coe_lt_coe_iff.mpr (by norm_num)
    exact_mod_cast this
  have hc : (solveMarket exampleOps exampleFlags initial last lastCosts).clippedCosts 1 = true := by
    simp [solveMarket, solveRest, solveSupply, safelyComputeTildeCosts, exampleOps, exampleFlags, outsideBounds]
    exact_mod_cast h
  obtain ⟨_, _, _, _, _, _, _, h⟩ := C124_costs exampleOps exampleFlags rfl (by simp [exampleFlags]) initial last lastCosts
  exact ⟨hc, by rw [(h rfl).2, if_pos hc]⟩

/-- Errors are about the contraction, tangents, and derivatives of costs, but not about costs. -/
example (initial last lastCosts : Fin 2 → Fl) :
    let r := solveMarket exampleOps exampleFlags initial last lastCosts
    .delta ∈ r.errors ∧ .convergence ∈ r.errors ∧ .generic ∈ r.errors ∧ .costs ∉ r.errors ∧ .xiJacobian ∉ r.errors := by
  intro r
  obtain ⟨h1, h2, h3, _, h5, h6⟩ := C124_errors exampleOps exampleFlags initial last lastCosts
  refine ⟨h2.mpr rfl, h1.mpr rfl, h6.mpr ⟨.inl rfl, .inr (.inl rfl)⟩, fun h => ?_, fun h => ?_⟩
  · exact Bool.false_ne_true (h5.mp h).2
  · exact Bool.false_ne_true (h3.mp h).2

end Pyblp
