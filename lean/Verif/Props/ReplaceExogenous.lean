import Verif.Model.ReplaceExogenous
import Verif.Props.Construction
import Mathlib.Algebra.BigOperators.Ring.Finset
import Mathlib.Tactic.FieldSimp

/-!
# Replacing exogenous characteristics: C54, and default instruments of problems from simulations: C79
-/

set_option linter.unusedSectionVars false

namespace Pyblp

variable {ν : Type} {K1 K2 K3 : ℕ}

/-- What validation of a name establishes. -/
theorem validateName_ok {K : ℕ} (columns : Fin K → ColumnFormulation ν) (others : List (ColumnFormulation ν)) (name endogenous : String)
    (coefficients : Fin K → ℝ) (i : Fin K) (h : validateName columns others name endogenous coefficients = .ok i) :
    (columns i).text = name ∧ (∀ j k, name ∈ (columns j).names → name ∈ (columns k).names → j = k) ∧
      (∀ f ∈ others, name ∉ f.names) ∧ name ≠ endogenous ∧ coefficients i ≠ 0 := by
  unfold validateName at h
  cases hf : (List.finRange K).find? fun i => decide ((columns i).text = name) with
  | none =>
    rw [hf] at h
    cases h
  | some index =>
    rw [hf] at h
    dsimp only at h
    by_cases h1 : 1 < ((List.finRange K).map fun i => if name ∈ (columns i).names then 1 else 0).sum
    · rw [if_pos h1] at h
      cases h
    rw [if_neg h1] at h
    by_cases h2 : (others.any fun f => decide (name ∈ f.names)) = true
    · rw [if_pos h2] at h
      cases h
    rw [if_neg h2] at h
    by_cases h3 : name = endogenous
    · rw [if_pos h3] at h
      cases h
    rw [if_neg h3] at h
    by_cases h4 : coefficients index = 0
    · rw [if_pos h4] at h
      cases h
    rw [if_neg h4] at h
    injection h with h
    subst h
    refine ⟨by simpa using List.find?_some hf, ?_, ?_, h3, h4⟩
    · intro j k hj hk
      rw [← Fin.sum_univ_def, Finset.sum_boole] at h1
      have h5 : (Finset.univ.filter fun i => name ∈ (columns i).names).card ≤ 1 := by
        simpa using h1
      exact Finset.card_le_one.1 h5 j (by simpa using hj) k (by simpa using hk)
    · intro f hf hn
      refine h2 (List.any_eq_true.2 ⟨f, hf, by simpa using hn⟩)

theorem linearIndex_replaced {K : ℕ} (columns : Fin K → ColumnFormulation ν) (hvalid : ∀ k, (columns k).Valid) (coefficients : Fin K → ℝ)
    (i : Fin K) (name : String) (hname : (columns i).text = name) (hvar : name ∈ (columns i).names)
    (honce : ∀ j k, name ∈ (columns j).names → name ∈ (columns k).names → j = k) (hc : coefficients i ≠ 0)
    (data data' : String → ν → ℝ) (target error : ν → ℝ)
    (hdata : data' name = replacedValues columns coefficients data i target error)
    (hother : ∀ s, s ≠ name → (∃ k, s ∈ (columns k).names) → data' s = data s) (n : ν) :
    linearIndex columns coefficients data' n + error n = target n := by
  have hi : (columns i).evaluate data' n = replacedValues columns coefficients data i target error n := by
    rw [(hvalid i).symbol (hname ▸ hvar), hname, hdata]
  have hk : ∀ k, k ≠ i → (columns k).evaluate data' n = (columns k).evaluate data n := by
    intro k hk
    rw [(hvalid k).depends data' data]
    intro s hs
    refine hother s (fun h => hk ?_) ⟨k, hs⟩
    subst h
    exact honce k i hs hvar
  have hsum : linearIndex columns coefficients data' n = linearIndex columns coefficients data n +
      ((columns i).evaluate data' n - (columns i).evaluate data n) * coefficients i := by
    unfold linearIndex
    rw [← Finset.add_sum_erase _ _ (Finset.mem_univ i), ← Finset.add_sum_erase (a := i) _ (fun k => (columns k).evaluate data n * coefficients k)
      (Finset.mem_univ i)]
    rw [Finset.sum_congr rfl (fun k hk' => by rw [hk k (Finset.ne_of_mem_erase hk')])]
    ring
  rw [hsum, hi]
  unfold replacedValues
  field_simp
  ring

/-- What `replace_exogenous` returns if it does. -/
theorem replaceExogenous_ok (X1 : Fin K1 → ColumnFormulation ν) (X2 : Fin K2 → ColumnFormulation ν) (X3 : Fin K3 → ColumnFormulation ν)
    (X1Name : String) (X3Name : Option String) (beta : Fin K1 → ℝ) (gamma : Fin K3 → ℝ) (data : String → ν → ℝ)
    (xi omega trueDelta trueTildeCosts : ν → ℝ) (overrides : List (String × (ν → ℝ)))
    (h : replaceExogenous X1 X2 X3 X1Name X3Name beta gamma data xi omega trueDelta trueTildeCosts = .ok overrides) :
    ∃ i, validateName X1 (List.ofFn X2 ++ List.ofFn X3) X1Name "prices" beta = .ok i ∧
      ((K3 = 0 ∧ X3Name = none ∧ overrides = [(X1Name, replacedValues X1 beta data i trueDelta xi)]) ∨
        ∃ name j, X3Name = some name ∧ validateName X3 (List.ofFn X1 ++ List.ofFn X2) name "shares" gamma = .ok j ∧
          overrides = [(X1Name, replacedValues X1 beta data i trueDelta xi),
            (name, replacedValues X3 gamma data j trueTildeCosts omega)]) := by
  unfold replaceExogenous at h
  cases h1 : validateName X1 (List.ofFn X2 ++ List.ofFn X3) X1Name "prices" beta with
  | error e =>
    rw [h1] at h
    cases h
  | ok i =>
    rw [h1] at h
    dsimp only at h
    refine ⟨i, rfl, ?_⟩
    by_cases hK : K3 = 0
    · rw [if_pos hK] at h
      cases X3Name with
      | none =>
        injection h with h
        exact Or.inl ⟨hK, rfl, h.symm⟩
      | some name => cases h
    · rw [if_neg hK] at h
      cases X3Name with
      | none => cases h
      | some name =>
        dsimp only at h
        cases h2 : validateName X3 (List.ofFn X1 ++ List.ofFn X2) name "shares" gamma with
        | error e =>
          rw [h2] at h
          cases h
        | ok j =>
          rw [h2] at h
          injection h with h
          exact Or.inr ⟨name, j, rfl, h2, h.symm⟩

theorem updateData_one (data : String → ν → ℝ) (a : String) (u : ν → ℝ) (s : String) :
    updateData data [(a, u)] s = if s = a then u else data s := rfl

theorem updateData_two (data : String → ν → ℝ) (a b : String) (u v : ν → ℝ) (s : String) :
    updateData data [(a, u), (b, v)] s = if s = b then v else if s = a then u else data s := rfl

/-- **C54.** Whenever `replace_exogenous` returns, the linear index for demand, computed with the product data of the results, plus the
demand-side error is the mean utility that has been computed, if the name is one of a variable. -/
theorem C54_demand_partial (X1 : Fin K1 → ColumnFormulation ν) (X2 : Fin K2 → ColumnFormulation ν) (X3 : Fin K3 → ColumnFormulation ν)
    (hX1 : ∀ k, (X1 k).Valid) (X1Name : String) (X3Name : Option String) (beta : Fin K1 → ℝ) (gamma : Fin K3 → ℝ)
    (data : String → ν → ℝ) (xi omega trueDelta trueTildeCosts : ν → ℝ) (overrides : List (String × (ν → ℝ)))
    (h : replaceExogenous X1 X2 X3 X1Name X3Name beta gamma data xi omega trueDelta trueTildeCosts = .ok overrides)
    (hvar : ∀ k, (X1 k).text = X1Name → X1Name ∈ (X1 k).names) (n : ν) :
    ∑ k, (X1 k).evaluate (updateData data overrides) n * beta k + xi n = trueDelta n := by
  obtain ⟨i, h1, h2⟩ := replaceExogenous_ok X1 X2 X3 X1Name X3Name beta gamma data xi omega trueDelta trueTildeCosts overrides h
  obtain ⟨a1, a2, a3, _, a5⟩ := validateName_ok _ _ _ _ _ _ h1
  refine linearIndex_replaced X1 hX1 beta i X1Name a1 (hvar i a1) a2 a5 data _ trueDelta xi ?_ ?_ n
  · rcases h2 with ⟨_, _, rfl⟩ | ⟨name, j, _, h3, rfl⟩
    · rw [updateData_one, if_pos rfl]
    · obtain ⟨_, _, b3, _, _⟩ := validateName_ok _ _ _ _ _ _ h3
      rw [updateData_two, if_neg, if_pos rfl]
      intro h
      refine b3 (X1 i) (List.mem_append_left _ (List.mem_ofFn.2 ⟨i, rfl⟩)) (h ▸ hvar i a1)
  · intro s hs ⟨k, hk⟩
    rcases h2 with ⟨_, _, rfl⟩ | ⟨name, j, _, h3, rfl⟩
    · rw [updateData_one, if_neg hs]
    · obtain ⟨_, _, b3, _, _⟩ := validateName_ok _ _ _ _ _ _ h3
      rw [updateData_two, if_neg, if_neg hs]
      rintro rfl
      exact b3 (X1 k) (List.mem_append_left _ (List.mem_ofFn.2 ⟨k, rfl⟩)) hk

/-- **C54.** With a supply side, the linear index for costs, computed with the product data of the results, plus the supply-side error is
the transformed cost that has been computed. -/
theorem C54_supply_partial (X1 : Fin K1 → ColumnFormulation ν) (X2 : Fin K2 → ColumnFormulation ν) (X3 : Fin K3 → ColumnFormulation ν)
    (hX3 : ∀ k, (X3 k).Valid) (hK3 : 0 < K3) (X1Name : String) (X3Name : Option String) (beta : Fin K1 → ℝ) (gamma : Fin K3 → ℝ)
    (data : String → ν → ℝ) (xi omega trueDelta trueTildeCosts : ν → ℝ) (overrides : List (String × (ν → ℝ)))
    (h : replaceExogenous X1 X2 X3 X1Name X3Name beta gamma data xi omega trueDelta trueTildeCosts = .ok overrides)
    (hvar : ∀ k, some (X3 k).text = X3Name → (X3 k).text ∈ (X3 k).names) (n : ν) :
    ∑ k, (X3 k).evaluate (updateData data overrides) n * gamma k + omega n = trueTildeCosts n := by
  obtain ⟨i, h1, h2⟩ := replaceExogenous_ok X1 X2 X3 X1Name X3Name beta gamma data xi omega trueDelta trueTildeCosts overrides h
  obtain ⟨_, _, a3, _, _⟩ := validateName_ok _ _ _ _ _ _ h1
  rcases h2 with ⟨h0, _, _⟩ | ⟨name, j, hn, h3, rfl⟩
  · omega
  obtain ⟨b1, b2, _, _, b5⟩ := validateName_ok _ _ _ _ _ _ h3
  have hv : name ∈ (X3 j).names := by
    have := hvar j (by rw [b1, hn])
    rwa [b1] at this
  refine linearIndex_replaced X3 hX3 gamma j name b1 hv b2 b5 data _ trueTildeCosts omega ?_ ?_ n
  · rw [updateData_two, if_pos rfl]
  · intro s hs ⟨k, hk⟩
    rw [updateData_two, if_neg hs, if_neg]
    rintro rfl
    exact a3 (X3 k) (List.mem_append_right _ (List.mem_ofFn.2 ⟨k, rfl⟩)) hk

/-- **C54.** Nonlinear characteristics do not change, so what has been computed from shares stays what shares imply. -/
theorem C54_nonlinear (X1 : Fin K1 → ColumnFormulation ν) (X2 : Fin K2 → ColumnFormulation ν) (X3 : Fin K3 → ColumnFormulation ν)
    (hX2 : ∀ k, (X2 k).Valid) (X1Name : String) (X3Name : Option String) (beta : Fin K1 → ℝ) (gamma : Fin K3 → ℝ)
    (data : String → ν → ℝ) (xi omega trueDelta trueTildeCosts : ν → ℝ) (overrides : List (String × (ν → ℝ)))
    (h : replaceExogenous X1 X2 X3 X1Name X3Name beta gamma data xi omega trueDelta trueTildeCosts = .ok overrides) (k : Fin K2) :
    (X2 k).evaluate (updateData data overrides) = (X2 k).evaluate data := by
  obtain ⟨i, h1, h2⟩ := replaceExogenous_ok X1 X2 X3 X1Name X3Name beta gamma data xi omega trueDelta trueTildeCosts overrides h
  obtain ⟨_, _, a3, _, _⟩ := validateName_ok _ _ _ _ _ _ h1
  refine (hX2 k).depends _ _ fun s hs => ?_
  have hs1 : s ≠ X1Name := by
    rintro rfl
    exact a3 (X2 k) (List.mem_append_left _ (List.mem_ofFn.2 ⟨k, rfl⟩)) hs
  rcases h2 with ⟨_, _, rfl⟩ | ⟨name, j, _, h3, rfl⟩
  · rw [updateData_one, if_neg hs1]
  · obtain ⟨_, _, b3, _, _⟩ := validateName_ok _ _ _ _ _ _ h3
    rw [updateData_two, if_neg, if_neg hs1]
    rintro rfl
    exact b3 (X2 k) (List.mem_append_right _ (List.mem_ofFn.2 ⟨k, rfl⟩)) hs

/-- Prices and shares, which are retained, are in no override. -/
theorem C54_retained (X1 : Fin K1 → ColumnFormulation ν) (X2 : Fin K2 → ColumnFormulation ν) (X3 : Fin K3 → ColumnFormulation ν)
    (X1Name : String) (X3Name : Option String) (beta : Fin K1 → ℝ) (gamma : Fin K3 → ℝ)
    (data : String → ν → ℝ) (xi omega trueDelta trueTildeCosts : ν → ℝ) (overrides : List (String × (ν → ℝ)))
    (h : replaceExogenous X1 X2 X3 X1Name X3Name beta gamma data xi omega trueDelta trueTildeCosts = .ok overrides)
    (hshares : X1Name ≠ "shares") (hprices : X3Name ≠ some "prices") :
    updateData data overrides "prices" = data "prices" ∧ updateData data overrides "shares" = data "shares" := by
  obtain ⟨i, h1, h2⟩ := replaceExogenous_ok X1 X2 X3 X1Name X3Name beta gamma data xi omega trueDelta trueTildeCosts overrides h
  obtain ⟨_, _, _, a4, _⟩ := validateName_ok _ _ _ _ _ _ h1
  rcases h2 with ⟨_, _, rfl⟩ | ⟨name, j, rfl, h3, rfl⟩
  · rw [updateData_one, updateData_one, if_neg (Ne.symm a4), if_neg (Ne.symm hshares)]
    exact ⟨rfl, rfl⟩
  · obtain ⟨_, _, _, b4, _⟩ := validateName_ok _ _ _ _ _ _ h3
    have hn : "prices" ≠ name := fun h => hprices (by rw [h])
    rw [updateData_two, updateData_two, if_neg hn, if_neg (Ne.symm a4), if_neg (Ne.symm b4), if_neg (Ne.symm hshares)]
    exact ⟨rfl, rfl⟩

/-! ### Columns for examples -/

/-- The column of a variable. -/
def variableColumn (ν : Type) (name : String) : ColumnFormulation ν := ⟨name, [name], fun d => d name⟩

/-- The column of ones. -/
def constantColumn (ν : Type) : ColumnFormulation ν := ⟨"1", [], fun _ _ => 1⟩

theorem variableColumn_valid (name : String) : (variableColumn ν name).Valid :=
  ⟨fun _ _ h => h name (List.mem_singleton.2 rfl), fun _ _ => rfl⟩

theorem constantColumn_valid : (constantColumn ν).Valid := ⟨fun _ _ _ => rfl, fun h => by cases h⟩

/-- **C54, refuted for the constant.** The name `'1'` of the constant column passes validation, and the results claim a mean utility that
their product data do not give: the constant is not replaced. -/
theorem C54_constant_refuted : ∃ (X1 : Fin 2 → ColumnFormulation Unit) (beta : Fin 2 → ℝ) (data : String → Unit → ℝ) (trueDelta : Unit → ℝ)
    (overrides : List (String × (Unit → ℝ))), (∀ k, (X1 k).Valid) ∧
      replaceExogenous (K2 := 0) (K3 := 0) X1 (fun k => k.elim0) (fun k => k.elim0) "1" none beta (fun k => k.elim0) data (fun _ => 0)
        (fun _ => 0) trueDelta (fun _ => 0) = .ok overrides ∧
      ∑ k, (X1 k).evaluate (updateData data overrides) () * beta k + 0 ≠ trueDelta () := by
  refine ⟨![constantColumn Unit, variableColumn Unit "prices"], ![1, -1], fun _ _ => 1, fun _ => 5, [("1", fun _ => 6)], ?_, ?_, ?_⟩
  · intro k
    fin_cases k
    · exact constantColumn_valid
    · exact variableColumn_valid "prices"
  · have hf : validateName ![constantColumn Unit, variableColumn Unit "prices"] (List.ofFn (n := 0) (fun k => k.elim0) ++
        List.ofFn (n := 0) fun k => k.elim0) "1" "prices" ![1, -1] = .ok 0 := by
      have e : List.finRange 2 = [0, 1] := by decide
      unfold validateName
      rw [e]
      simp [constantColumn, variableColumn]
    unfold replaceExogenous
    rw [hf]
    simp only [if_true]
    congr 3
    funext n
    simp [replacedValues, linearIndex, constantColumn, variableColumn, Fin.sum_univ_two]
    norm_num
  · simp [constantColumn, variableColumn, Fin.sum_univ_two, updateData]

/-- A simulation with a constant, prices and one characteristic, which is replaced. -/
example : ∃ overrides, replaceExogenous (K2 := 1) (K3 := 1)
    ![constantColumn (Fin 2), variableColumn (Fin 2) "prices", variableColumn (Fin 2) "x"] ![variableColumn (Fin 2) "prices"]
    ![variableColumn (Fin 2) "z"] "x" (some "z") ![1, -1, 2] ![3] (fun s i => if s = "x" then i.val else 1) ![1, -1] ![0, 1] ![5, 7] ![2, 3] =
      .ok overrides := by
  have e : List.finRange 3 = [0, 1, 2] := by decide
  have e1 : List.finRange 1 = [0] := by decide
  have h1 : validateName ![constantColumn (Fin 2), variableColumn (Fin 2) "prices", variableColumn (Fin 2) "x"]
      (List.ofFn ![variableColumn (Fin 2) "prices"] ++ List.ofFn ![variableColumn (Fin 2) "z"]) "x" "prices" ![1, -1, 2] = .ok 2 := by
    unfold validateName
    rw [e]
    simp [constantColumn, variableColumn, List.find?]
  have h2 : validateName ![variableColumn (Fin 2) "z"]
      (List.ofFn ![constantColumn (Fin 2), variableColumn (Fin 2) "prices", variableColumn (Fin 2) "x"] ++
        List.ofFn ![variableColumn (Fin 2) "prices"]) "z" "shares" ![3] = .ok 0 := by
    unfold validateName
    rw [e1]
    simp [constantColumn, variableColumn]
  unfold replaceExogenous
  rw [h1]
  dsimp only
  rw [if_neg (by norm_num), h2]
  exact ⟨_, rfl⟩

/-- **C54.** With no supply side, a name for it fails an assertion, although the documentation says that it is not used then. -/
theorem C54_no_supply (X1 : Fin K1 → ColumnFormulation ν) (X2 : Fin K2 → ColumnFormulation ν) (X3 : Fin 0 → ColumnFormulation ν)
    (X1Name X3Name : String) (beta : Fin K1 → ℝ) (gamma : Fin 0 → ℝ) (data : String → ν → ℝ) (xi omega trueDelta trueTildeCosts : ν → ℝ)
    (i : Fin K1) (h : validateName X1 (List.ofFn X2 ++ List.ofFn X3) X1Name "prices" beta = .ok i) :
    replaceExogenous X1 X2 X3 X1Name (some X3Name) beta gamma data xi omega trueDelta trueTildeCosts = .error .assertionError := by
  unfold replaceExogenous
  rw [h]
  rfl

/-! ### Default instruments -/

section

variable {ι φ : Type} [LinearOrder ι] [LinearOrder φ] {N : ℕ}

namespace Spec

/-- Sums of characteristics over other products of the firm and over those of rivals in the market. -/
noncomputable def sumInstruments (marketIds : Fin N → ι) (firmIds : Fin N → φ) (columns : List (Fin N → ℝ)) : List (Fin N → Option ℝ) :=
  (columns.map fun x i => some (∑ q ∈ others marketIds firmIds i, x q)) ++ columns.map fun x i => some (∑ q ∈ rivals marketIds firmIds i, x q)

/-- Demand-side instruments of a problem with given product data: nonconstant sums of a constant, if numbers of products vary, and of
characteristics, along with supply shifters. -/
noncomputable def demandInstruments (marketIds : Fin N → ι) (firmIds : Fin N → φ) (jVariation : Bool) (X1Names X3Names : List String)
    (data : String → Fin N → ℝ) : List (Fin N → Option ℝ) :=
  dropConstant (sumInstruments marketIds firmIds ((if jVariation then [fun _ => 1] else []) ++ X1Names.map data)) ++
    (X3Names.filter (· ∉ X1Names)).map fun s i => some (data s i)

end Spec

theorem blpColumns_eq (marketIds : Fin N → ι) (firmIds : Fin N → φ) (sortM sortP : List (Fin N)) (hM : IsArgsort marketIds sortM)
    (hP : IsArgsort (interactIds marketIds firmIds) sortP) (ones : Bool) (names : List String) (data : String → Fin N → ℝ) :
    blpColumns marketIds firmIds sortM sortP ones names data =
      Spec.sumInstruments marketIds firmIds ((if ones then [fun _ => 1] else []) ++ names.map data) := by
  unfold blpColumns Spec.sumInstruments
  dsimp only
  generalize (if ones then [fun _ => (1 : ℝ)] else []) ++ names.map data = columns
  congr 1
  · refine List.map_congr_left fun x _ => ?_
    funext i
    rw [(C03_blp marketIds firmIds sortM sortP hM hP (fun n (_ : Fin 1) => x n) i).1]
    rfl
  · refine List.map_congr_left fun x _ => ?_
    funext i
    rw [(C03_blp marketIds firmIds sortM sortP hM hP (fun n (_ : Fin 1) => x n) i).2]
    rfl

theorem updateData_untouched {ν : Type} (data : String → ν → ℝ) (overrides : List (String × (ν → ℝ))) (s : String)
    (h : s ∉ overrides.map Prod.fst) : updateData data overrides s = data s := by
  unfold updateData
  induction overrides generalizing data with
  | nil => rfl
  | cons o overrides ih =>
    rw [List.map_cons, List.mem_cons, not_or] at h
    rw [List.foldl_cons, ih _ h.2, if_neg h.1]

/-- **C79.** If what has been replaced is none of the exogenous variables, as for prices and shares, then demand instruments of the problem
that `to_problem` gives are sums of characteristics in its own product data. -/
theorem C79_endogenous_partial (marketIds : Fin N → ι) (firmIds : Fin N → φ) (sortM sortP : List (Fin N)) (hM : IsArgsort marketIds sortM)
    (hP : IsArgsort (interactIds marketIds firmIds) sortP) (jVariation hasSupply : Bool) (X1Names X3Names : List String)
    (data : String → Fin N → ℝ) (overrides : List (String × (Fin N → ℝ)))
    (h1 : ∀ s ∈ X1Names, s ∉ overrides.map Prod.fst) (h3 : ∀ s ∈ X3Names, s ∉ overrides.map Prod.fst) :
    (toProblemData marketIds firmIds sortM sortP jVariation hasSupply X1Names X3Names data overrides).2.1 =
      Spec.demandInstruments marketIds firmIds jVariation X1Names X3Names
        (toProblemData marketIds firmIds sortM sortP jVariation hasSupply X1Names X3Names data overrides).1 := by
  unfold toProblemData defaultInstruments Spec.demandInstruments
  dsimp only
  have e1 : X1Names.map (updateData data overrides) = X1Names.map data :=
    List.map_congr_left fun s hs => updateData_untouched data overrides s (h1 s hs)
  have e3 : ((X3Names.filter (· ∉ X1Names)).map fun s i => some (updateData data overrides s i)) =
      (X3Names.filter (· ∉ X1Names)).map fun s i => some (data s i) :=
    List.map_congr_left fun s hs => by rw [updateData_untouched data overrides s (h3 s (List.mem_filter.1 hs).1)]
  rw [e1, e3, blpColumns_eq marketIds firmIds sortM sortP hM hP]
  congr 1
  by_cases h : jVariation = false ∧ X1Names = []
  · rw [if_pos h, h.1, h.2]
    rfl
  · rw [if_neg h]

/-- **C79, refuted for replaced exogenous variables.** After `replace_exogenous`, default instruments are sums of the values that the
characteristic had before it was replaced: they differ from those of the problem's own product data. Two products of one market with
different firms; the characteristic of the first has been replaced. -/
theorem C79_exogenous_refuted : ∃ (data : String → Fin 2 → ℝ) (overrides : List (String × (Fin 2 → ℝ))),
    replaceExogenous (K2 := 0) (K3 := 0) ![variableColumn (Fin 2) "x"] (fun k => k.elim0) (fun k => k.elim0) "x" none ![1]
      (fun k => k.elim0) data (fun _ => 0) (fun _ => 0) ![5, 7] (fun _ => 0) = .ok overrides ∧
    (toProblemData (ι := ℕ) (φ := ℕ) (fun _ => 0) (fun i => i.val) [0, 1] [0, 1] false false ["x"] [] data overrides).2.1 ≠
      Spec.demandInstruments (fun _ => 0) (fun i => i.val) false ["x"] []
        (toProblemData (ι := ℕ) (φ := ℕ) (fun _ => 0) (fun i => i.val) [0, 1] [0, 1] false false ["x"] [] data overrides).1 := by
  refine ⟨fun _ i => i.val, [("x", ![5, 7])], ?_, ?_⟩
  · have e1 : List.finRange 1 = [0] := by decide
    have h1 : validateName ![variableColumn (Fin 2) "x"] (List.ofFn (n := 0) (fun k => k.elim0) ++ List.ofFn (n := 0) fun k => k.elim0)
        "x" "prices" ![1] = .ok 0 := by
      unfold validateName
      rw [e1]
      simp [variableColumn]
    unfold replaceExogenous
    rw [h1]
    simp only [if_true]
    congr 3
    funext n
    simp [replacedValues, linearIndex, variableColumn]
  · have hM : IsArgsort (fun _ : Fin 2 => (0 : ℕ)) [0, 1] := ⟨by decide, by decide⟩
    have hP : IsArgsort (interactIds (fun _ : Fin 2 => (0 : ℕ)) fun i => i.val) [0, 1] := ⟨by decide, by decide⟩
    intro h
    unfold toProblemData defaultInstruments Spec.demandInstruments at h
    dsimp only at h
    rw [if_neg (by simp), blpColumns_eq _ _ _ _ hM hP] at h
    have hmem : (fun i : Fin 2 => some (∑ q ∈ Spec.rivals (fun _ : Fin 2 => (0 : ℕ)) (fun i => i.val) i, (![5, 7] : Fin 2 → ℝ) q)) ∈
        dropConstant (Spec.sumInstruments (fun _ : Fin 2 => (0 : ℕ)) (fun i => i.val)
          ([] ++ ["x"].map (updateData (fun _ i => ((i.val : ℕ) : ℝ)) [("x", ![5, 7])]))) := by
      unfold dropConstant
      rw [List.mem_filter]
      refine ⟨by simp [Spec.sumInstruments, updateData], ?_⟩
      rw [decide_eq_true_iff]
      refine ⟨0, 1, ?_⟩
      simp [Spec.rivals, Finset.sum_filter, Fin.sum_univ_two]
    have h2 := List.mem_append_left ((([] : List String).filter (· ∉ ["x"])).map fun s i =>
      some (updateData (fun _ i => ((i.val : ℕ) : ℝ)) [("x", ![5, 7])] s i)) hmem
    rw [if_neg (by simp)] at h
    rw [← h] at h2
    rw [List.mem_append] at h2
    rcases h2 with h2 | h2
    · unfold dropConstant at h2
      rw [List.mem_filter] at h2
      have h3 := h2.1
      simp only [Spec.sumInstruments, List.nil_append, List.map_cons, List.map_nil, List.cons_append, List.mem_cons, List.not_mem_nil,
        or_false] at h3
      rcases h3 with h3 | h3
      · have := congrFun h3 0
        simp [Spec.rivals, Spec.others, Finset.sum_filter, Fin.sum_univ_two] at this
      · have := congrFun h3 0
        simp [Spec.rivals, Finset.sum_filter, Fin.sum_univ_two] at this
    · simp at h2

end

end Pyblp
